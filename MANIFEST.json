{"claims": [
{"property": "C01", "status": "proved", "theorems": ["Verif.Bytes.C01_write64", "Verif.Bytes.C01_write32", "Verif.Bytes.C01_write16", "Verif.Bytes.C01_write64_injective"], "note": ""},
{"property": "C02", "status": "proved", "theorems": ["Verif.HalfFloat.C02_nan", "Verif.HalfFloat.C02_inf", "Verif.HalfFloat.C02_finite", "Verif.HalfFloat.C02_sign", "Verif.HalfFloat.C02_truncates", "Verif.HalfFloat.C02_monotone", "Verif.HalfFloat.C02_exact"], "note": ""},
{"property": "C03", "status": "partial", "theorems": ["Verif.QuarterFloat.C03_code_iff_partial", "Verif.QuarterFloat.C03_restore_partial", "Verif.QuarterFloat.C03_tiny_violated"], "note": "fails for code 0x80 at biases 12..15 (witness proved); exact characterisation of the stable codes proved for every bias 1..15"},
{"property": "C04", "status": "partial", "theorems": ["Verif.QuarterFloat.C04_sign_iff_partial", "Verif.QuarterFloat.C04_sign_violated", "Verif.QuarterFloat.C04_nonneg"], "note": "the code violates it: exactly the negative numbers below 17/16*2^-bias become positive"},
{"property": "C05", "status": "partial", "theorems": ["Verif.QuarterFloat.C05_saturates", "Verif.QuarterFloat.C05_specials", "Verif.QuarterFloat.C05_finite", "Verif.QuarterFloat.C05_rounds_partial", "Verif.QuarterFloat.C05_monotone", "Verif.QuarterFloat.C05_lowest_violated", "Verif.QuarterFloat.C05_other_nan_violated"], "note": "rounding claim fails on [2^-b, 17/16*2^-b) only; NaN payloads other than the canonical ones become finite"},
{"property": "C06", "status": "proved", "theorems": ["Verif.Trie.C06_lookup", "Verif.Trie.C06_search", "Verif.Trie.C06_startsWith", "Verif.Trie.C06_complete_unknown", "Verif.Trie.C06_complete_known"], "note": ""},
{"property": "C07", "status": "partial", "theorems": ["Verif.LruCache.C07_bounded_partial", "Verif.LruCache.C07_recent_partial", "Verif.LruCache.C07_present_after", "Verif.LruCache.C07_no_false_positive", "Verif.LruCache.C07_capacity_violated", "Verif.LruCache.C07_recent_violated", "Verif.LruCache.C07_zero_capacity_violated"], "note": "holds for insert-if-absent histories (the only use in the library); false for re-insertion and capacity 0, witnesses proved"},
{"property": "C08", "status": "partial", "theorems": ["Verif.TextCodec.C08_round_trip", "Verif.TextCodec.C08_no_newline", "Verif.TextCodec.C08_no_delimiter_partial", "Verif.TextCodec.C08_delimiter_violated"], "note": "round trip and no-newline proved for all strings and delimiters; no-delimiter proved for every delimiter outside the six escape characters and refuted for those six"},
{"property": "C09", "status": "proved", "theorems": ["Verif.ReplaceAll.C09_replaced", "Verif.ReplaceAll.C09_unique", "Verif.ReplaceAll.C09_empty_pattern", "Verif.ReplaceAll.C09_absent"], "note": ""},
{"property": "C10", "status": "partial", "theorems": ["Verif.Bpe.C10_round_trip", "Verif.Bpe.C10_trained_partial"], "note": "Round trip proved for every usable table and for every encoder reached by training and reloading, as long as each training call starts with the code counter below 0x7FFE; beyond that the reserved codes are handed out (C11_reserved_violated)."},
{"property": "C100", "status": "partial", "theorems": ["Verif.TensorStats.C100_quarters", "Verif.TensorStats.C100_eighty_partial", "Verif.TensorStats.C100_eighty_violated", "Verif.TensorStats.C100_empty_violated"], "note": "Quartiles are right for non-empty bags; the values at 10, 50 and 90 percent only if no bucket holds four tenths of the elements."},
{"property": "C101", "status": "partial", "theorems": ["Verif.Decimal.C101_whole", "Verif.Decimal.C101_bool", "Verif.Decimal.C101_partial", "Verif.Decimal.C101_violated", "Verif.Decimal.C101_zero_violated", "Verif.Decimal.C101_nan"], "note": "Floats from 2^-25 up, zero and infinities; smaller ones change or become zero."},
{"property": "C102", "status": "partial", "theorems": ["Verif.SavedFlags.C102_partial", "Verif.SavedFlags.C102_violated"], "note": "For networks in which every layer leads to an output; a layer that leads to none is left out when a trained network is saved."},
{"property": "C103", "status": "partial", "theorems": ["Verif.ModelFiles.C103_partial", "Verif.ModelFiles.C103_violated"], "note": "If the names with the time stamp are free; otherwise another model's configuration is replaced."},
{"property": "C104", "status": "partial", "theorems": ["Verif.ModelFiles.C104_violated"], "note": "Saving over an existing model deletes the knowledge of all other labels, always."},
{"property": "C105", "status": "proved", "theorems": ["Verif.ModelFiles.C105_save", "Verif.ModelFiles.C105_remove"], "note": ""},
{"property": "C106", "status": "partial", "theorems": ["Verif.Wiring.C106_partial", "Verif.Wiring.C106_rows_violated", "Verif.Wiring.C106_channels_violated", "Verif.Wiring.C106_dropout_violated"], "note": "If the declared shapes fit together in a sense that can be decided from the description; the builder accepts full layers with several rows of output, full layers on one row with several channels, and dropout between images, which do not work."},
{"property": "C107", "status": "partial", "theorems": ["Verif.Wiring.C107_partial", "Verif.Wiring.C107_violated", "Verif.Wiring.C107_branches_violated"], "note": "For depth-first forests and for inputs that are joined at once and followed by a tree; otherwise the order is that of the wiring."},
{"property": "C108", "status": "partial", "theorems": ["Verif.Wiring.C108_partial", "Verif.Wiring.C108_violated"], "note": "For layers on different branches listed in the order of their description; skip connections are joined in the other order and their errors are cut at the wrong columns."},
{"property": "C109", "status": "partial", "theorems": ["Verif.LabelNetwork.C109_partial", "Verif.LabelNetwork.C109_channels_violated"], "note": "For given columns that are images of at least 3x3, have several rows, or a single row with one channel; expected columns with several rows or channels make every prediction throw, which the theorem states too; sizes below 2^64."},
{"property": "C11", "status": "partial", "theorems": ["Verif.Bpe.C11_terminates", "Verif.Bpe.C11_vocab", "Verif.Bpe.C11_train_step", "Verif.Bpe.C11_codes_partial", "Verif.Bpe.C11_reserved_violated", "Verif.Bpe.C11_empty_token_violated"], "note": "Termination for every vocabulary, map order and early stopping; codes distinct and inside the range when the counter starts below 0x7FFE. Violations: repeated training past the limit assigns 0x7FFF; an empty token is undefined behaviour."},
{"property": "C110", "status": "partial", "theorems": ["Verif.LabelNetwork.C110_partial", "Verif.LabelNetwork.C110_constant", "Verif.LabelNetwork.C110_violated"], "note": "For complexities from one on; the search also tries smaller ones, with which layers get no units and predictions ignore the inputs."},
{"property": "C111", "status": "partial", "theorems": ["Verif.TaskInputs.C111_partial", "Verif.TaskInputs.C111_fails", "Verif.TaskInputs.C111_short_violated", "Verif.TaskInputs.C111_case_violated"], "note": "Too few values for a column are undefined behaviour; columns whose names differ only in case share a value."},
{"property": "C112", "status": "partial", "theorems": ["Verif.LabelNetwork.C112_partial", "Verif.LabelNetwork.C112_network_partial", "Verif.LabelNetwork.C112_row_violated"], "note": "For several given columns, or one with several rows or a single value; a single column of one row (such as one label) makes the execution with inputs throw; images are excluded because their values are not scaled (C51)."},
{"property": "C113", "status": "partial", "theorems": ["Verif.Accuracy.C113_partial", "Verif.Accuracy.C113_labels_partial", "Verif.Accuracy.C113_many_violated"], "note": "For at most 2^24 considered records; beyond that the float counters stop, and wrong records are no longer counted."},
{"property": "C114", "status": "partial", "theorems": ["Verif.Accuracy.C114_first", "Verif.Accuracy.C114_partial", "Verif.Accuracy.C114_elements_violated", "Verif.Accuracy.C114_throws_violated"], "note": "Only as many elements of each column are compared as there are columns: proved when these numbers are the same; otherwise wrong predictions count as right, or an exception is thrown."},
{"property": "C115", "status": "partial", "theorems": ["Verif.Embedding.C115_partial", "Verif.Embedding.C115_rows_partial", "Verif.Embedding.C115_long", "Verif.Embedding.C115_shape_violated", "Verif.Embedding.C115_zero_violated"], "note": "For at least as many tokens as the sequence is long; fewer tokens give fewer rows than promised, and length zero throws."},
{"property": "C116", "status": "partial", "theorems": ["Verif.Embedding.C116_partial", "Verif.Embedding.encoding_injective"], "note": "If the lowest frequencies are small enough for the length of the sequence, e.g. 512 dimensions and 2048 positions; few dimensions are missing. Real numbers instead of floats."},
{"property": "C117", "status": "partial", "theorems": ["Verif.Embedding.C117_partial", "Verif.Embedding.C117_dimensions", "Verif.Embedding.C117_loaded_violated", "Verif.Embedding.current_new", "Verif.Embedding.current_train"], "note": "For new and trained encoders; after loading, the largest code is wrong: different texts get the same embedding, or a row is written out of bounds."},
{"property": "C118", "status": "partial", "theorems": ["Verif.Picture.C118_partial", "Verif.Picture.C118_total", "Verif.Picture.C118_odd_violated", "Verif.Picture.C118_two_channels_violated", "Verif.Picture.C118_bright_violated"], "note": "For an even number of rows, one or at least three channels, and values from zero to one; a single last row is shown too bright, two channels are blank, larger values look the same."},
{"property": "C119", "status": "partial", "theorems": ["Verif.Execute.C119_partial", "Verif.Execute.C119_columns_violated", "Verif.Execute.C119_range_violated", "Verif.Execute.C119_labels_violated"], "note": "For datasets whose columns have the descriptions of the task and given columns of one scale. Given columns of different scales are misread even on the training data; other ranges and labels are not converted to those of the task."},
{"property": "C12", "status": "partial", "theorems": ["Verif.Bpe.C12_round_trip", "Verif.Bpe.C12_truncated", "Verif.Bpe.C12_load_twice_violated"], "note": "Save then load into a new encoder restores it for every table with strings below 65536 characters; truncated files give a prefix. Loading into a used encoder keeps old codes (violation)."},
{"property": "C120", "status": "partial", "theorems": ["Verif.Execute.C120_partial", "Verif.Execute.C120_labels_violated"], "note": "For up to 2^24 rows with the labels of the task in any range, if the given columns of the task have one scale; with unknown labels, wrong predictions count as right."},
{"property": "C121", "status": "partial", "theorems": ["Verif.CreateDataset.C121_partial", "Verif.CreateDataset.C121_written_partial", "Verif.CreateDataset.C121_total", "Verif.CreateDataset.C121_tsv_violated", "Verif.CreateDataset.C121_text_violated", "Verif.CreateDataset.C121_conflict_violated", "Verif.CreateDataset.C121_blank_violated", "Verif.CreateDataset.C121_labels_violated"], "note": "For csv files with number and image columns and labels in one column, whose fields survive being written and read, if the 64-bit hashes of different given values differ. Of records with the same given values only one is kept; blank records are lost; labels in several columns and text throw; tsv and txt files are never found, and a csv file of the same name is emptied."},
{"property": "C122", "status": "proved", "theorems": ["Verif.Pixel.C122_range", "Verif.Pixel.C122_outside", "Verif.Pixel.C122_close", "Verif.Pixel.C122_order", "Verif.Pixel.C122_levels", "Verif.Pixel.C122_again", "Verif.Pixel.C122_tensor", "Verif.Pixel.C122_vector", "Verif.Pixel.C122_nested", "Verif.Pixel.C122_nearest_violated"], "note": "Bit level, exact float rounding, for all 2^32 floats. C122_nearest_violated: the value is truncated, so the stored level need not be the nearest one (0.999 becomes 254/255); the statement claims one step only. Nested vectors without a first row are undefined behaviour."},
{"property": "C123", "status": "partial", "theorems": ["Verif.Graph.C123_count", "Verif.Graph.C123_clean_partial", "Verif.Graph.C123_single_partial", "Verif.Graph.C123_shift", "Verif.Graph.C123_stuck", "Verif.Graph.C123_violated", "Verif.Graph.C123_forever_violated"], "note": "Holds for all acyclic networks while no prediction failed, and, whatever failed before, for networks without layers with several inputs. With joined inputs it does not hold: forwardFromConnection empties the connections only when the pass ended normally. After a failure behind the join every later prediction uses the second input of the prediction before it (C123_shift, for any number of later predictions), or every later prediction throws (C123_stuck)."},
{"property": "C124", "status": "partial", "theorems": ["Verif.Materialize.C124_full", "Verif.Materialize.C124_half", "Verif.Materialize.C124_bias", "Verif.Materialize.C124_again_partial", "Verif.Materialize.C124_settles", "Verif.Materialize.C124_load_full", "Verif.Materialize.C124_load_half", "Verif.Materialize.C124_load_quarter", "Verif.Materialize.C124_violated", "Verif.Materialize.C124_tiny_violated", "Verif.Materialize.C124_nan_violated"], "note": "Bit level. Proved for 32 and 16 bits. With 8 bits the second storing uses the next smaller bias exactly when a stored number is the largest of its format (C124_bias), and small numbers are then lost or change their sign; otherwise nothing changes if the smallest code is not used or the bias is at most 11. The fourth storing never changes anything (C124_settles). Loading with 8 bits is the same as storing once more in memory, for finite elements; NaN becomes a number."},
{"property": "C125", "status": "partial", "theorems": ["Verif.Regression.C125_partial", "Verif.Regression.C125_limit_partial", "Verif.Regression.C125_batches_partial", "Verif.Regression.C125_default", "Verif.Regression.C125_violated"], "note": "Exact real arithmetic, sgd without momentum, learning rates small enough for the inputs: rate times (mean squared length of the inputs plus half the L2 strength) plus bias rate at most a half. The default rates meet this if the mean squared length is at most 99 (C125_default). With larger inputs training diverges at the default rates (C125_violated). Stated for the training loop (Verif.Training) with the layers, loss and optimizer of C61, C67, C70 and C92; the objective is a separate specification in plain sums (Verif.Spec.Regression). Missing: momentum and adam, batches smaller than the dataset without an exact fit, rounding."},
{"property": "C126", "status": "partial", "theorems": ["Verif.Rounding.C126_partial", "Verif.Rounding.C126_decision_partial", "Verif.Rounding.C126_unit", "Verif.Rounding.C126_overflow_violated", "Verif.Rounding.C126_relative_violated"], "note": "Bit level, IEEE binary32 with every operation rounded to nearest even (no fused multiply-add). Hypotheses: finite parameters and input, sums of absolute values at most 2^125, at most 2^23 roundings. Without the bound on the sizes the prediction can be NaN although the exact one is 0 (C126_overflow_violated); the error is relative to the absolute values that are added, not to the result (C126_relative_violated). Not covered: activations with exponentials, convolution, normalization. Parameters stored with 8 and 16 bits: C130_floats_partial."},
{"property": "C127", "status": "partial", "theorems": ["Verif.Bpe.C127_learned", "Verif.Bpe.C127_at_most", "Verif.Bpe.C127_shorter", "Verif.Bpe.C127_replaced", "Verif.Bpe.C127_rate", "Verif.Bpe.C127_files", "Verif.Bpe.C127_at_least", "Verif.Bpe.C127_rate_limit", "Verif.Bpe.C127_nested_violated", "Verif.Bpe.C127_zero_violated", "Verif.Bpe.C127_file_violated"], "note": "Proved for one training call on the texts as encoded before it, for encoders reached by training and reloading while the code counter is below 0x7FFE. The pairs are counted once, before the first merge: codes made in a call are not merged further (C127_nested_violated), so after n calls a code stands for at most 2^n characters (C127_at_least, C127_rate_limit). num_merges = 0 makes one merge; training on a file a second time leaves an encoder that replaces nothing (C127_file_violated). The compression rate is an exact fraction."},
{"property": "C128", "status": "partial", "theorems": ["Verif.Rounding.C128_direction_partial", "Verif.Rounding.C128_size", "Verif.Rounding.C128_size_half", "Verif.Rounding.C128_sixteen", "Verif.Rounding.C128_lost", "Verif.Rounding.C128_lost_half", "Verif.Rounding.C128_jump_half", "Verif.Rounding.C128_shrinks_violated", "Verif.Rounding.C128_drift_violated", "Verif.Rounding.C128_quarter_violated"], "note": "Bit level, IEEE binary32 with every operation rounded to nearest even. The direction holds with 32 bits, and with 16 bits for weights that are 16-bit values (all are after the first update, C128_sixteen); the size holds up to rounding (2^-24 of the weight with 32 bits, a hundredth with 16 bits). The rest is violated: 16-bit values are truncated towards zero and have 8 significant bits, so a change of less than a 512th away from zero is lost (C128_lost_half) and any change towards zero takes a 256th of the weight (C128_jump_half); over any sequence of small changes a weight only shrinks (C128_shrinks_violated). With 8 bits a weight with gradient zero can change its sign when another weight of the layer grows (C128_quarter_violated). Not covered: accuracy with 8 bits, sgdm and adam in floats, the rounding in the gradient itself."},
{"property": "C129", "status": "partial", "theorems": ["Verif.Rebuild.C129_first_partial", "Verif.Rebuild.C129_again_violated", "Verif.Rebuild.C129_outputs_violated", "Verif.Rebuild.C129_intact"], "note": "The first build of a description returns the network that C60, C102 and C106-C108 are about. Layers stay in the vertices and are never removed (reset is not called), so every later build without new inputs returns a network without outputs whose saved configuration has no layers, whatever was added in between; networks of one builder never share an output. Earlier networks keep their connections."},
{"property": "C13", "status": "proved", "theorems": ["Verif.Tokenizer.C13_content", "Verif.Tokenizer.C13_shape", "Verif.Tokenizer.C13_idempotent"], "note": ""},
{"property": "C130", "status": "partial", "theorems": ["Verif.Precision.C130_partial", "Verif.Precision.C130_full", "Verif.Precision.C130_decision_partial", "Verif.Precision.C130_floats_partial", "Verif.Precision.C130_unit", "Verif.Precision.C130_sign_violated", "Verif.Precision.C130_large_violated"], "note": "Proved for finite parameters, with 8 bits below 1920 in absolute value (larger ones are cut off, C130_large_violated); the sum of absolute values counts every parameter with a slack (2^-126 with 16 bits; a 480th of the largest parameter of the layer plus 1/1024 with 8 bits), because parameters too small for the format do not keep their relative accuracy. The sign of a prediction can change with 8 bits even if only one weight counts (C130_sign_violated). Predictions in exact arithmetic; C130_floats_partial adds the rounding of C126. Not covered: convolution, normalization, softmax."},
{"property": "C131", "status": "partial", "theorems": ["Verif.Interrupted.C131_moments", "Verif.Interrupted.C131_kept", "Verif.Interrupted.C131_old_model", "Verif.Interrupted.C131_outside_partial", "Verif.Interrupted.C131_lost_violated", "Verif.Interrupted.C131_checkpoint", "Verif.Interrupted.C131_room", "Verif.Interrupted.C131_full_disk_violated", "Verif.Interrupted.C131_result_violated", "Verif.Interrupted.C131_truncated"], "note": "Holds at every moment when nothing is overwritten and for checkpoints under other labels. With overwriting the old model is removed before the new one is written, so that a stop in between loses both; a full disk or a file that cannot be opened is not reported, and a shortened weight file is read past its end."},
{"property": "C132", "status": "partial", "theorems": ["Verif.SearchNetwork.C132_partial", "Verif.SearchNetwork.C132_filters", "Verif.SearchNetwork.C132_rates_violated", "Verif.SearchNetwork.C132_image_violated", "Verif.SearchNetwork.C132_depth_violated", "Verif.SearchNetwork.C132_channels_violated"], "note": "Proved for data sets and configurations that are Suited: layer sizes below 2^64, no single column with one row and several channels, and for a single image no dropout and enough pixels for all the convolutions; what happens to expected columns with several rows or channels is part of the statement (an exception with bias, one long row without). An image with dropout makes every prediction throw (C132_image_violated: the dropout layer flattens), an image that is too small has layers of about 2^64 rows (C132_depth_violated), all positive dropout rates of the space describe the same network (C132_rates_violated)."},
{"property": "C133", "status": "partial", "theorems": ["Verif.FloatActivation.C133_range", "Verif.FloatActivation.C133_nan", "Verif.FloatActivation.C133_order_partial", "Verif.FloatActivation.C133_centre", "Verif.FloatActivation.C133_slope", "Verif.FloatActivation.C133_infinite_violated", "Verif.FloatActivation.C133_order_violated", "Verif.FloatActivation.C133_strict_violated"], "note": "Bit level, IEEE binary32; exp and tanh of the C library are parameters with the assumptions Sound (monotone, in range, exact at 0). Violated: the leaky rectifier and the approximated sigmoid turn infinities into NaN, the approximated sigmoid is not monotone between some neighbouring floats, and sigmoids reach 1 (at 17 already), where the derivative is 0 instead of positive."},
{"property": "C134", "status": "partial", "theorems": ["Verif.FloatLoss.C134_error", "Verif.FloatLoss.C134_likelihood", "Verif.FloatLoss.C134_right", "Verif.FloatLoss.C134_order", "Verif.FloatLoss.C134_derivative_partial", "Verif.FloatLoss.C134_categorical", "Verif.FloatLoss.C134_learns_partial", "Verif.FloatLoss.C134_stuck_violated", "Verif.FloatLoss.C134_infinite_violated"], "note": "Bit level, IEEE binary32; exp and log of the C library are parameters (Sound, SoundLog). Violated: a saturated sigmoid (input of 17 or more) with the worst possible answer hands down 0, so that the answer is never corrected (C134_stuck_violated); a prediction below 2^-127 has an infinite derivative for truth 1 (C134_infinite_violated). C134_derivative_partial and C134_learns_partial name the predictions and inputs for which the claims hold."},
{"property": "C135", "status": "partial", "theorems": ["Verif.FloatSoftmax.C135_range", "Verif.FloatSoftmax.C135_order", "Verif.FloatSoftmax.C135_nan", "Verif.FloatSoftmax.C135_sum", "Verif.FloatSoftmax.C135_largest", "Verif.FloatSoftmax.C135_exact_violated", "Verif.FloatSoftmax.C135_ties_violated"], "note": "Bit level, with the sum in double (53 bits); exp of the C library is a parameter (Sound). The documented sum of exactly 1 is missed already by three equal inputs (C135_exact_violated, which gets more than 1), and different inputs can get the same output (C135_ties_violated)."},
{"property": "C136", "status": "partial", "theorems": ["Verif.FloatAdam.C136_rate", "Verif.FloatAdam.C136_moments", "Verif.FloatAdam.C136_finite_partial", "Verif.FloatAdam.C136_direction", "Verif.FloatAdam.C136_frozen_violated", "Verif.FloatAdam.C136_nan_violated"], "note": "Bit level, IEEE binary32, one weight (updates are elementwise); powf and sqrt of the C library are parameters (Sound: range, order, two exact squares). Violated: one gradient of 2^64 or more makes the second moment infinite, from then on every change is 0 and the weight never moves again (C136_frozen_violated); one infinite or NaN gradient (C134_infinite_violated shows one that cross-entropy hands down) makes the weight NaN for ever (C136_nan_violated). Gradient clipping, which would prevent both, is off by default."},
{"property": "C137", "status": "partial", "theorems": ["Verif.FloatMomentum.C137_momentum", "Verif.FloatMomentum.C137_finite_partial", "Verif.FloatMomentum.C137_direction", "Verif.FloatMomentum.C137_rest", "Verif.FloatMomentum.C137_drift_violated", "Verif.FloatMomentum.C137_infinite_violated", "Verif.FloatMomentum.C137_rate", "Verif.FloatMomentum.C137_rate_sign_violated"], "note": "Bit level, IEEE binary32, one weight (updates are elementwise); powf and sqrt of the C library are parameters. Violated: 0.9 times 2^-147 is 2^-147 again, so that the momentum need not reach 0 and a weight near 0 drifts on without gradients (C137_drift_violated; weights of 2^-121 and more do rest, C137_rest); an infinite gradient leaves the weight infinite or NaN for ever (C137_infinite_violated); the decayed learning rate of sgdm and of adam is 1e-5 whenever the average momentum is not positive, however large (C137_rate_sign_violated)."},
{"property": "C138", "status": "partial", "theorems": ["Verif.FloatDistance.C138_range", "Verif.FloatDistance.C138_order", "Verif.FloatDistance.C138_exact", "Verif.FloatDistance.C138_sign_partial", "Verif.FloatDistance.C138_mae_violated", "Verif.FloatDistance.C138_underflow_violated", "Verif.FloatDistance.C138_overflow_violated"], "note": "Bit level, IEEE binary32, one element (the views compute elementwise; the mean is not modelled); powf of the C library is a parameter (Squares). Violated: the derivative of mae has the opposite sign for every wrong prediction (C138_mae_violated; C67 over the reals); mse and smae are 0 for differences of at most 2^-76 (C138_underflow_violated) and infinite for differences of at least 2^64 (C138_overflow_violated), also smae, which is documented to be linear there but is always half the square. C138_exact shows the rest of the equivalence for mae."},
{"property": "C139", "status": "partial", "theorems": ["Verif.FloatTable.C139_predict", "Verif.FloatTable.C139_step", "Verif.FloatTable.C139_range", "Verif.FloatTable.C139_settles", "Verif.FloatTable.C139_reached_violated", "Verif.FloatTable.C139_rate_violated"], "note": "Bit level, IEEE binary32, for learning rates up to a quarter; with the rate 1 a weight can jump to and fro for ever (C139_rate_violated). C139_settles: a label that is shown again and again with the same number settles between its first weight and the number, at a distance of at most (|weight|/2^23 + 2^-148)/rate. It need not reach the number: with the rate 0.01 the weight 1 never moves when 1 + 2^-19 is expected (C139_reached_violated). Not covered: batches of several records, bias, L2 regularization, inputs other than labels (exact arithmetic: C125)."},
{"property": "C14", "status": "proved", "theorems": ["Verif.Tokenizer.C14_chunks", "Verif.Tokenizer.C14_file", "Verif.Tokenizer.C14_lines", "Verif.Tokenizer.C14_lines_shape"], "note": ""},
{"property": "C140", "status": "partial", "theorems": ["Verif.QuarterArith.C140_comm", "Verif.QuarterArith.C140_accurate", "Verif.QuarterArith.C140_saturates", "Verif.QuarterArith.C140_small_partial", "Verif.QuarterArith.C140_number", "Verif.QuarterArith.C140_sign_partial", "Verif.QuarterArith.C140_neutral", "Verif.QuarterArith.C140_self", "Verif.QuarterArith.C140_order_partial", "Verif.QuarterArith.C140_specials", "Verif.QuarterArith.C140_range", "Verif.QuarterArith.C140_order_violated", "Verif.QuarterArith.C140_zero_violated", "Verif.QuarterArith.C140_lowest_violated"], "note": "Bit level. C140_accurate (12.6 percent), C140_saturates and C140_small_partial together cover all results except those between 1 and 17/16 of the lowest power of two of the bias. Violated at every bias 1..15: a number minus a larger number can be positive (C140_order_violated), zero times a negative number is positive (C140_zero_violated), both because small negative results are stored as code 0x80, which stands for a positive number; a difference that is exactly the lowest power of two comes out as at most 51 percent of it (C140_lowest_violated). C140_order_partial: sums that are not negative keep the order. C140_neutral excludes code 0x80 at biases above 11, which is not its own round trip (C03)."},
{"property": "C141", "status": "partial", "theorems": ["Verif.TensorStats.C141_best_partial", "Verif.TensorStats.C141_window_partial", "Verif.TensorStats.C141_most_precise_partial", "Verif.TensorStats.C141_limits", "Verif.TensorStats.C141_bias_violated", "Verif.TensorStats.C141_without_zero_violated", "Verif.TensorStats.C141_mixed_violated"], "note": "Exact arithmetic, one thread (the order of the threads matters, C71), FIT_BIAS_FOR_100 with zero required. The three partial theorems need that no entry of a bag mixes elements of different signs. Violated: the bias alone does not hold the elements, and 8-bit tensors have no offset, so elements saturate (C141_bias_violated: 200 is stored as 120); if zero is not required an element can be out of the range (C141_without_zero_violated); so can a small negative one that shares an entry with a positive one (C141_mixed_violated). Not covered: the choices for 80 and 50 percent."},
{"property": "C142", "status": "partial", "theorems": ["Verif.TaskFiles.C142_others", "Verif.TaskFiles.C142_complete", "Verif.TaskFiles.C142_repair", "Verif.TaskFiles.C142_existing", "Verif.TaskFiles.C142_stays", "Verif.TaskFiles.C142_name_violated", "Verif.TaskFiles.C142_name_parsed_violated", "Verif.TaskFiles.C142_dataset_violated", "Verif.TaskFiles.C142_stopped_violated"], "note": "Proved for names that are one component of a path, at every moment of a call. Violated: the name `.` empties the folder of all tasks; a second creation from another dataset reports success and keeps the old task; a stop after the network and before dataset.bin leaves a task that is never completed and cannot be executed. The search is an arbitrary function."},
{"property": "C143", "status": "partial", "theorems": ["Verif.DatasetFiles.C143_others", "Verif.DatasetFiles.C143_kept", "Verif.DatasetFiles.C143_existing", "Verif.DatasetFiles.C143_created", "Verif.DatasetFiles.C143_repair", "Verif.DatasetFiles.C143_stopped_violated", "Verif.DatasetFiles.C143_exists_violated", "Verif.DatasetFiles.C143_lost_violated", "Verif.DatasetFiles.C143_left_violated", "Verif.DatasetFiles.C143_bare_violated", "Verif.DatasetFiles.merged_unique"], "note": "Proved for csv sources, for all disks and moments of stopping; what the steps compute is an arbitrary function. Violated: files of the user named like the files on the way are overwritten and removed; a source without a folder is sorted by way of the root folder, and if that cannot be written the dataset has no record and success is reported; a dataset stopped while being written, or made from another source, counts as existing; an exception leaves files behind."},
{"property": "C144", "status": "partial", "theorems": ["Verif.FloatStatistics.C144_mean", "Verif.FloatStatistics.C144_mean_accurate", "Verif.FloatStatistics.C144_deviation", "Verif.FloatStatistics.C144_constant", "Verif.FloatStatistics.C144_running", "Verif.FloatStatistics.C144_normalized_partial", "Verif.FloatStatistics.C144_undone", "Verif.FloatStatistics.C144_constant_violated", "Verif.FloatStatistics.C144_range_violated"], "note": "Mean, deviation, column values and undoing proved with all roundings of float and double (IEEE, to nearest, no fused operations); roots are left out (the claim is about what they are taken of). Normalizing proved for columns with two different values whose range is a float; violated: a column with one value normalizes to NaN, and if the range overflows everything becomes 0 or NaN."},
{"property": "C145", "status": "partial", "theorems": ["Verif.FloatColumn.C145_metadata", "Verif.FloatColumn.C145_read_back_partial", "Verif.FloatColumn.C145_apart_partial", "Verif.FloatColumn.C145_collapsed_violated", "Verif.FloatColumn.C145_lost_violated"], "note": "Proved with all roundings of float and double, including the root: the metadata is right up to a small error, and the error of reading back is at most (4 + deviation) * M / 2^22 + 2^-149 for numbers of size at most M. This is not small against the differences: a standardized column is normalized with its smallest and largest value from before, so if the values are large against their spread all of them are stored as one number (violated in general for 2^27 * range <= deviation * |smallest|, and for 2^29 and 2^29 + 64)."},
{"property": "C146", "status": "partial", "theorems": ["Verif.FloatNormalization.C146_finite_partial", "Verif.FloatNormalization.C146_zero", "Verif.FloatNormalization.C146_single", "Verif.FloatNormalization.C146_backward_finite_partial", "Verif.FloatNormalization.C146_tiny_violated", "Verif.FloatNormalization.C146_backward_violated"], "note": "Proved with all roundings of float and double: results are finite and at most 1024 times the root of the number of elements, if the largest element is between 2^-60 and 2^125 (or all are zero, or there is only one); errors handed down are finite for up to 2^16 elements, the largest between 2^-8 and 2^20, and errors of at most 1. Violated: with elements 2^-149 and zeros the results are infinite and NaN; with elements 2^-50 and 0 the error handed down is infinite."},
{"property": "C147", "status": "partial", "theorems": ["Verif.LoadDelimited.C147_says", "Verif.LoadDelimited.C147_loaded", "Verif.LoadDelimited.C147_written", "Verif.LoadDelimited.C147_swapped", "Verif.LoadDelimited.C147_missing_violated", "Verif.LoadDelimited.C147_short_violated", "Verif.LoadDelimited.C147_blank_violated"], "note": "Proved for all files that can be opened and have a record, all three text encoders, both orders of the columns; text to number conversion and the storing of pixels are parameters. Written files: fields that survive writing (C15). Violated: a path that cannot be opened gives an empty dataset; a record with too few columns is undefined behaviour."},
{"property": "C148", "status": "proved", "theorems": ["Verif.SearchDraw.C148_text", "Verif.SearchDraw.C148_different", "Verif.SearchDraw.C148_count", "Verif.SearchDraw.C148_weights"], "note": "Proved for all draws and spaces; floats are printed by the decimal rounding of the C library (half to even on exact ties), the weights are exact numbers, the random engine is an arbitrary sequence of draws from the space."},
{"property": "C149", "status": "partial", "theorems": ["Verif.FloatIndex.C149_max", "Verif.FloatIndex.C149_max_column", "Verif.FloatIndex.C149_min", "Verif.FloatIndex.C149_all_max", "Verif.FloatIndex.C149_all_min", "Verif.FloatIndex.C149_invalid", "Verif.FloatIndex.C149_decoded", "Verif.FloatIndex.C149_rough", "Verif.FloatIndex.C149_rough_other", "Verif.FloatIndex.C149_assert", "Verif.FloatIndex.C149_nan_violated", "Verif.FloatIndex.C149_absolute_violated"], "note": "Bit level, IEEE binary32. A row without a number above minus infinity gets index 0, so that a prediction full of NaN is decoded as the first label (C149_nan_violated). The tolerance is absolute: small numbers of different sign count as equal, and an infinity is not equal to itself (C149_absolute_violated)."},
{"property": "C15", "status": "partial", "theorems": ["Verif.Csv.C15_record_partial", "Verif.Csv.C15_file_partial", "Verif.Csv.C15_line_breaks_partial", "Verif.Csv.C15_number", "Verif.Csv.C15_double_quote_violated", "Verif.Csv.C15_enclosed_violated", "Verif.Csv.C15_whitespace_violated", "Verif.Csv.C15_numeric_prefix_violated", "Verif.Csv.C15_numeric_quote_violated", "Verif.Csv.C15_empty_record_violated"], "note": "Round trip proved for every record of safe fields and every delimiter other than the quote and newline; each excluded class of fields is refuted by a witness."},
{"property": "C150", "status": "partial", "theorems": ["Verif.ConvertTsv.C150_converted_partial", "Verif.ConvertTsv.C150_missing", "Verif.ConvertTsv.C150_comma_violated", "Verif.ConvertTsv.C150_quote_violated"], "note": "Proved for all files of plain cells if cells that begin like a number contain no comma; the csv is read back with happyml's own reader. Violated: an address that begins with a house number and contains a comma is cut into two cells; a single quotation mark makes the conversion throw after part of the csv is written."},
{"property": "C151", "status": "partial", "theorems": ["Verif.ModelName.C151_accepted", "Verif.ModelName.C151_settings", "Verif.ModelName.C151_folder", "Verif.ModelName.C151_inside_partial", "Verif.ModelName.C151_apart", "Verif.ModelName.C151_generated", "Verif.ModelName.C151_task", "Verif.ModelName.C151_word", "Verif.ModelName.C151_empty_violated", "Verif.ModelName.C151_kept_violated", "Verif.ModelName.C151_task_violated"], "note": "Proved for names that are not empty and builders none of whose calls was refused. Violated: the empty name is accepted and saving with overwriting then removes everything in the repository; a refused name stays in the builder if the exception is caught; a task may be given a name that the builder refuses. Bytes from 128 to 254 are undefined behaviour in the model, as in C++."},
{"property": "C152", "status": "partial", "theorems": ["Verif.Program.C152_completed", "Verif.Program.C152_exit", "Verif.Program.C152_exception", "Verif.Program.C152_code", "Verif.Program.C152_missing_violated", "Verif.Program.C152_syntax_violated", "Verif.Program.C152_failed_violated"], "note": "Proved for all scripts whose statements succeed, throw, or end with exit; an exit that is not the last statement has no effect (C47). Violated: the exit code is 0 although a script cannot be opened, cannot be parsed or has a failing statement, and the scripts after it are run."},
{"property": "C153", "status": "partial", "theorems": ["Verif.Facts.C153_reported", "Verif.Facts.C153_exact_partial", "Verif.Facts.C153_wrap_violated"], "note": "Proved for all descriptions that fit together (as in C106), for all values of the parameters; the sums are those of size_t, so that a network with 2^64 parameters reports none."},
{"property": "C154", "status": "proved", "theorems": ["Verif.GeometricMean.C154_root", "Verif.GeometricMean.C154_nan", "Verif.GeometricMean.C154_between", "Verif.GeometricMean.C154_scaled"], "note": "Exact real arithmetic: logarithm and exponential are the real functions, doubles are not rounded."},
{"property": "C155", "status": "partial", "theorems": ["Verif.VariantText.C155_exactly", "Verif.VariantText.C155_named_partial", "Verif.VariantText.C155_script_partial", "Verif.VariantText.C155_violated", "Verif.VariantText.C155_throws_violated"], "note": "Bit level: stof rounds to the nearest float, the stream prints six significant digits (%g). C155_exactly says which texts survive. Violated for all others: 1000000 is printed as 1e+06, 1.50 as 1.5, 007 as 7, so that a label written like that is unknown unless it is quoted."},
{"property": "C156", "status": "partial", "theorems": ["Verif.Words.C156_word_partial", "Verif.Words.C156_value_violated", "Verif.Words.C156_number_violated", "Verif.Words.C156_column_violated"], "note": "Proved for all words that are not keywords. Violated: keywords are refused with an error message, except that the value number throws an exception that the parser does not catch, because the keyword has the label of numbers."},
{"property": "C157", "status": "partial", "theorems": ["Verif.PrintRow.C157_row", "Verif.PrintRow.C157_pixels", "Verif.PrintRow.C157_aligned_violated"], "note": "Bit level: fixed with three decimals, rounded to the nearest. Violated: std::setw holds for the first number of a line only (and for the empty text before the first parenthesis), so that numbers below each other are not aligned."},
{"property": "C158", "status": "partial", "theorems": ["Verif.PrintTensor.C158_place", "Verif.PrintTensor.C158_short", "Verif.PrintTensor.C158_injective", "Verif.PrintTensor.C158_violated"], "note": "Bit level. Reading back is proved for the range of C101 (Survives), and that different tensors of one shape have different texts in that range. Violated: numbers that differ only behind the fifteenth decimal have the same text, as 2^-149 and 0."},
{"property": "C159", "status": "partial", "theorems": ["Verif.ShowColumn.C159_shown_partial", "Verif.ShowColumn.C159_pixels_partial", "Verif.ShowColumn.C159_violated", "Verif.ShowColumn.C159_constant_violated"], "note": "Composition of C145 and C157 with all roundings of float and double. Violated: 2^29 and 2^29 + 64 are both shown as 536870912.000; every column of equal numbers is stored as NaN and shown as nan (C159_constant_violated, general)."},
{"property": "C16", "status": "partial", "theorems": ["Verif.LineReader.C16_prefix", "Verif.LineReader.C16_all_partial", "Verif.LineReader.C16_empty_file_violated", "Verif.LineReader.C16_header_only_violated", "Verif.LineReader.C16_unreadable_violated"], "note": "Every line is read when each file has a line to read; an empty, header-only or unreadable file loses all later files (refuted by witnesses). Nothing is ever invented or reordered."},
{"property": "C160", "status": "proved", "theorems": ["Verif.MeanInput.C160_mean", "Verif.MeanInput.C160_order", "Verif.MeanInput.C160_convolution", "Verif.MeanInput.C160_gradient_violated"], "note": "Exact arithmetic in any field. C160_gradient_violated records that this is not the sum of the gradients of the uses, which needs an error for each of them."},
{"property": "C17", "status": "proved", "theorems": ["Verif.FileSorter.C17_total", "Verif.FileSorter.C17_header", "Verif.FileSorter.C17_sorted", "Verif.FileSorter.C17_distinct", "Verif.FileSorter.C17_chunk_independent"], "note": "For every input, chunk size and tie-breaking; empty lines are dropped by design. Chunk file I/O failures are not modelled."},
{"property": "C18", "status": "proved", "theorems": ["Verif.Shuffler.C18_permutation", "Verif.Shuffler.C18_bijective"], "note": ""},
{"property": "C19", "status": "partial", "theorems": ["Verif.DataSet.C19_partition_partial", "Verif.DataSet.C19_partition_large_partial", "Verif.DataSet.C19_search_overlap_violated", "Verif.DataSet.C19_large_violated"], "note": "Complementary splits partition the rows up to 2^24 rows, and for fractions up to 0.99 (the library's 0.9/-0.1) for all row counts. Violations: the label-task search opens r and -r, which overlap; above 2^24 rows the whole-file view can claim a row that does not exist."},
{"property": "C20", "status": "proved", "theorems": ["Verif.Shuffler.C20_split", "Verif.Shuffler.C20_sample"], "note": "The validation size is a parameter (any value up to the number of lines); order within the outputs is random in the code."},
{"property": "C21", "status": "proved", "theorems": ["Verif.DataSet.C21_epoch", "Verif.DataSet.C21_epoch_each_once", "Verif.DataSet.C21_in_memory"], "note": ""},
{"property": "C22", "status": "partial", "theorems": ["Verif.OneHot.C22_bpe_partial", "Verif.OneHot.C22_bpe_largest_violated", "Verif.OneHot.C22_characters_partial", "Verif.OneHot.C22_characters_violated", "Verif.OneHot.C22_words"], "note": "Holds except for the largest byte-pair code and for characters of 128 and above, which are out-of-bounds writes (proved)."},
{"property": "C23", "status": "proved", "theorems": ["Verif.OneHot.C23_length", "Verif.OneHot.C23_spec"], "note": ""},
{"property": "C24", "status": "proved", "theorems": ["Verif.BinaryDataset.C24_header", "Verif.BinaryDataset.C24_header_injective", "Verif.BinaryDataset.C24_needs_given", "Verif.BinaryDataset.C24_empty_columns_violated"], "note": "For every schema with at least one given column and at least one value per row; a schema without values divides by zero on opening (proved)."},
{"property": "C25", "status": "proved", "theorems": ["Verif.BinaryDataset.C25_rows", "Verif.BinaryDataset.C25_lossy_columns"], "note": "Bit for bit for number/text columns, for 0/1 in label columns and for the 256 levels in image columns; other values in those columns are rounded by design (C25_lossy_columns). Files below 2^63 bytes."},
{"property": "C26", "status": "partial", "theorems": ["Verif.BinaryDataset.C26_stores", "Verif.BinaryDataset.C26_subsequence", "Verif.BinaryDataset.C26_drop_iff", "Verif.BinaryDataset.C26_new_row_stored", "Verif.BinaryDataset.C26_new_values_dropped_violated", "Verif.BinaryDataset.C26_printed", "Verif.BinaryDataset.C26_printed_same", "Verif.BinaryDataset.C26_text", "Verif.BinaryDataset.C26_visible"], "note": "Exact behaviour in terms of hashes for every hash function; in terms of values it fails for every string hash because values are hashed through their text with 15 decimals. What the text keeps: the shape and every element up to 10^-15 (C26_text, C26_visible), so new given values are told from old ones up to that and up to collisions of the hash."},
{"property": "C27", "status": "partial", "theorems": ["Verif.BinaryDataset.C27_renormalize_partial", "Verif.BinaryDataset.C27_renormalize_violated"], "note": "Every column uses the first target column's constants: correct with one column per side, wrong otherwise."},
{"property": "C28", "status": "proved", "theorems": ["Verif.BinaryDataset.C28_save_load", "Verif.BinaryDataset.C28_stored_data", "Verif.BinaryDataset.C28_length"], "note": ""},
{"property": "C29", "status": "proved", "theorems": ["Verif.Views.C29_position_lt", "Verif.Views.C29_position_injective", "Verif.Views.C29_position_surjective", "Verif.Views.C29_offset_get", "Verif.Views.C29_enumerates", "Verif.Views.C29_reshape", "Verif.Views.C29_reshape3", "Verif.Views.C29_flatten", "Verif.Views.C29_reshape_round_trip"], "note": ""},
{"property": "C30", "status": "proved", "theorems": ["Verif.Views.C30_transpose", "Verif.Views.C30_rotate", "Verif.Views.C30_rotate_twice", "Verif.Views.C30_rotate_transpose"], "note": ""},
{"property": "C31", "status": "partial", "theorems": ["Verif.Views.C31_concat", "Verif.Views.C31_concat_rejects", "Verif.Views.C31_backward", "Verif.Views.C31_round_trip", "Verif.Views.C31_declared_shape", "Verif.Views.C31_channels_unchecked_violated"], "note": "For inputs with equal channel counts and at least one column each; the concatenation does not check channel counts (C31_channels_unchecked_violated)."},
{"property": "C32", "status": "proved", "theorems": ["Verif.Views.C32_zero_pad", "Verif.Views.C32_no_padding"], "note": ""},
{"property": "C33", "status": "proved", "theorems": ["Verif.Views.C33_matmul", "Verif.Views.C33_matmul_in_range", "Verif.Views.C33_assoc", "Verif.Views.C33_transpose", "Verif.Views.C33_identity", "Verif.Views.C33_dot", "Verif.Views.C33_outer"], "note": "Exact arithmetic (any semiring); float rounding is not modelled."},
{"property": "C34", "status": "proved", "theorems": ["Verif.Inverse.C34_inverse", "Verif.Inverse.C34_rejects", "Verif.Inverse.C34_unique", "Verif.Inverse.C34_tensor"], "note": "Exact arithmetic, square matrices (the code does not check squareness)."},
{"property": "C35", "status": "partial", "theorems": ["Verif.Views.C35_above_partial", "Verif.Views.C35_never_second", "Verif.Views.C35_below_violated"], "note": "The mask's tensor2 branch is never taken by the code; see DESIGN.md."},
{"property": "C36", "status": "partial", "theorems": ["Verif.Statistics.C36_explicit_partial", "Verif.Statistics.C36_single_partial", "Verif.Statistics.C36_view_violated", "Verif.Statistics.C36_sum_violated"], "note": "Right when mean and deviation are given, and for tensors of one element; the view that computes them itself gets a wrong mean."},
{"property": "C37", "status": "proved", "theorems": ["Verif.Statistics.C37_running", "Verif.Statistics.C37_tensors", "Verif.Statistics.C37_set", "Verif.Statistics.C37_set_range"], "note": "Exact arithmetic."},
{"property": "C38", "status": "partial", "theorems": ["Verif.Statistics.C38_range_partial", "Verif.Statistics.C38_constant_violated", "Verif.Statistics.C38_standardized_violated"], "note": "For columns that are not constant and whose deviation is at most one; constant columns divide by zero, and wider columns are standardized first and leave the range."},
{"property": "C39", "status": "proved", "theorems": ["Verif.Statistics.C39_round_trip", "Verif.Statistics.C39_dataset"], "note": "Exact arithmetic."},
{"property": "C40", "status": "proved", "theorems": ["Verif.Statistics.C40_top", "Verif.Statistics.C40_max_by_row", "Verif.Statistics.C40_max_by_col", "Verif.Statistics.C40_min", "Verif.Statistics.C40_max_indices"], "note": ""},
{"property": "C41", "status": "proved", "theorems": ["Verif.Views.C41_valid", "Verif.Views.C41_in_range", "Verif.Views.C41_large_kernel_violated", "Verif.Layers.C41_layer"], "note": "Exact arithmetic. The case the statement excludes is C41_large_kernel_violated: a larger kernel is not rejected and the size wraps around."},
{"property": "C42", "status": "proved", "theorems": ["Verif.Lexer.C42_success", "Verif.Lexer.C42_concat", "Verif.Lexer.C42_error"], "note": "Against an independent description of the token kinds (Verif/Spec/Lexer.lean). Bytes >= 128 are taken as non-letters."},
{"property": "C43", "status": "proved", "theorems": ["Verif.Lexer.C43_terminates"], "note": ""},
{"property": "C44", "status": "proved", "theorems": ["Verif.Lexer.C44_identifier", "Verif.Lexer.C44_first_token", "Verif.Lexer.C44_whole"], "note": ""},
{"property": "C45", "status": "partial", "theorems": ["Verif.Parser.C45_terminates_partial", "Verif.Parser.C45_calm_partial", "Verif.Parser.C45_print_partial", "Verif.Parser.C45_violated"], "note": "Several scripts make the parser throw; the theorems settle which statements can."},
{"property": "C46", "status": "partial", "theorems": ["Verif.Parser.C46_partial", "Verif.Parser.C46_violated"], "note": "Texts that end in a backslash cannot be written between quotes."},
{"property": "C47", "status": "partial", "theorems": ["Verif.Interpreter.C47_partial", "Verif.Interpreter.C47_violated"], "note": "An exit that is not the last statement is ignored."},
{"property": "C48", "status": "partial", "theorems": ["Verif.Columns.C48_exact_partial", "Verif.Columns.C48_sound_partial", "Verif.Columns.C48_violated"], "note": "Groups that share only the last column of one of them are accepted; an exact description of what is accepted is proved."},
{"property": "C49", "status": "proved", "theorems": ["Verif.Columns.C49", "Verif.Columns.C49_short"], "note": ""},
{"property": "C50", "status": "partial", "theorems": ["Verif.Columns.C50_nothing_lost", "Verif.Columns.C50_partial", "Verif.Columns.C50_sentence", "Verif.Columns.C50_violated"], "note": "No word is lost, but a sentence end late in a cell is written twice."},
{"property": "C51", "status": "partial", "theorems": ["Verif.Encoders.C51_layout", "Verif.Encoders.C51_number_exchanged", "Verif.Encoders.C51_number_partial", "Verif.Encoders.C51_label_transposed", "Verif.Encoders.C51_violated"], "note": "Rows and columns are exchanged and image values are not divided by 255."},
{"property": "C52", "status": "proved", "theorems": ["Verif.Encoders.C52", "Verif.Encoders.C52_dataset", "Verif.Encoders.C52_prediction"], "note": "The order of the collected labels is arbitrary."},
{"property": "C53", "status": "proved", "theorems": ["Verif.EstimateBias.C53_fits", "Verif.EstimateBias.C53_nested", "Verif.EstimateBias.C53_estimate", "Verif.EstimateBias.C53_materialize"], "note": ""},
{"property": "C54", "status": "proved", "theorems": ["Verif.ExitStrategy.C54", "Verif.ExitStrategy.C54_terminates", "Verif.ExitStrategy.C54_patience", "Verif.ExitStrategy.C54_reason"], "note": "Floats are exact numbers of an ordered field, infinities or NaN."},
{"property": "C55", "status": "proved", "theorems": ["Verif.Graph.C55", "Verif.Graph.C55_predict", "Verif.Graph.value_exists"], "note": "For networks without cycles whose connections start at the heads or their descendants; layers are arbitrary functions."},
{"property": "C56", "status": "partial", "theorems": ["Verif.Graph.C56_partial", "Verif.Graph.C56_exact", "Verif.Graph.C56_violated"], "note": "The error that arrives last is counted twice; exact only for a single consumer."},
{"property": "C57", "status": "proved", "theorems": ["Verif.Statistics.C57_clip"], "note": ""},
{"property": "C58", "status": "proved", "theorems": ["Verif.Graph.C58", "Verif.Graph.C58_ends"], "note": ""},
{"property": "C59", "status": "partial", "theorems": ["Verif.ModelFiles.C59_partial", "Verif.ModelFiles.C59_violated", "Verif.ModelFiles.C59_load_violated"], "note": "Right when overwriting or for a new folder; otherwise the weights go to the old folder and the new model cannot be loaded."},
{"property": "C60", "status": "partial", "theorems": ["Verif.ModelFiles.C60_description", "Verif.ModelFiles.C60_partial", "Verif.ModelFiles.C60_order_violated", "Verif.ModelFiles.C60_skip_violated"], "note": "For descriptions made depth first without skip connections; other orders exchange the weights, skip connections duplicate layers."},
{"property": "C61", "status": "proved", "theorems": ["Verif.Training.C61", "Verif.Training.C61_completes", "Verif.Training.C61_rejected"], "note": "For every network; batch size zero is undefined behaviour and excluded."},
{"property": "C62", "status": "partial", "theorems": ["Verif.Training.C62_partial", "Verif.Training.C62_violated"], "note": "A smaller last batch is weighted wrongly."},
{"property": "C63", "status": "proved", "theorems": ["Verif.Training.C63"], "note": "Saving and loading knowledge is abstracted to a lawful snapshot; the files are C28, C102 and C105."},
{"property": "C64", "status": "partial", "theorems": ["Verif.Hyperband.C64_partial", "Verif.Hyperband.C64_violated"], "note": "The comparison is the wrong way round: each round keeps the worst configurations."},
{"property": "C65", "status": "proved", "theorems": ["Verif.Hyperband.C65", "Verif.Hyperband.C65_factor_one_violated", "Verif.Hyperband.C65_factor_zero_violated"], "note": "Outside the claim: factor one never ends, factor zero divides by zero."},
{"property": "C66", "status": "partial", "theorems": ["Verif.LabelTask.C66_partial", "Verif.LabelTask.C66_saved", "Verif.LabelTask.C66_kept", "Verif.LabelTask.C66_combinations", "Verif.LabelTask.C66_violated", "Verif.LabelTask.C66_exceptions_violated"], "note": "Ends if trainings on the complete data eventually reach the target; otherwise it goes on for ever, and undefined behaviour follows if all attempts throw."},
{"property": "C67", "status": "partial", "theorems": ["Verif.Loss.C67_mse", "Verif.Loss.C67_mse_step", "Verif.Loss.C67_smae", "Verif.Loss.C67_bce", "Verif.Loss.C67_bce_sign", "Verif.Loss.C67_cce", "Verif.Loss.C67_descent_partial", "Verif.Loss.C67_cce_descent", "Verif.Loss.C67_mae_violated", "Verif.Loss.C67_smae_formula_violated"], "note": "Real arithmetic. Mean absolute error has the wrong sign; the smooth variant is consistent but is not the documented function. Binary and categorical cross entropy between the clipping bounds; categorical with respect to the inputs of the softmax."},
{"property": "C68", "status": "partial", "theorems": ["Verif.Activation.C68_derivative_partial", "Verif.Activation.C68_reported_partial", "Verif.Activation.C68_kink", "Verif.Activation.C68_range", "Verif.Activation.C68_monotone", "Verif.Activation.C68_tensor_partial", "Verif.Activation.C68_approx_violated", "Verif.Activation.C68_approx_sign"], "note": "Real arithmetic. Wrong for the sigmoid approximation except at 1/2 and -1/2; softmax is C90."},
{"property": "C69", "status": "proved", "theorems": ["Verif.Activation.C69"], "note": "Real arithmetic; the whole tensor is one distribution."},
{"property": "C70", "status": "partial", "theorems": ["Verif.Optimizer.C70_sgd", "Verif.Optimizer.C70_momentum", "Verif.Optimizer.C70_adam_partial", "Verif.Optimizer.C70_rate_constant", "Verif.Optimizer.C70_rate_bounded", "Verif.Optimizer.C70_ids", "Verif.Optimizer.C70_adam_step_bounded", "Verif.Optimizer.C70_independent", "Verif.Optimizer.C70_independent_violated", "Verif.Optimizer.C70_adam_violated"], "note": "Exact arithmetic, any sequence of calls. With decaying momentum all layers share a recomputed learning rate, so layers influence each other; Adam lacks the bias correction of the published rule."},
{"property": "C71", "status": "partial", "theorems": ["Verif.TensorStats.C71_counts", "Verif.TensorStats.C71_collect", "Verif.TensorStats.C71_values_partial", "Verif.TensorStats.C71_order_partial", "Verif.TensorStats.C71_violated"], "note": "Counts never depend on the schedule; the value that stands for a bucket does, because a thread that met none of its elements resets it to zero. Rational arithmetic."},
{"property": "C72", "status": "proved", "theorems": ["Verif.Enums.C72_activation", "Verif.Enums.C72_layer", "Verif.Enums.C72_loss", "Verif.Enums.C72_optimizer", "Verif.Enums.C72_no_delimiter", "Verif.Enums.Faithful.spec"], "note": ""},
{"property": "C73", "status": "partial", "theorems": ["Verif.NormLayers.C73_rates", "Verif.NormLayers.C73_partial", "Verif.NormLayers.C73_rate_zero", "Verif.NormLayers.C73_training_violated", "Verif.NormLayers.C73_configured_violated", "Verif.NormLayers.C73_prediction_violated", "Verif.NormLayers.C73_rate_one_violated"], "note": "Nothing is ever dropped, because the mask view never uses its second alternative, and the requested rate is ignored when a network is described. C73_partial states exactly when this is right."},
{"property": "C74", "status": "proved", "theorems": ["Verif.PrettyPrint.C74", "Verif.PrettyPrint.C74_aligned"], "note": "Column widths come from the first row, so later wider rows are not aligned; nothing is cut off."},
{"property": "C75", "status": "partial", "theorems": ["Verif.Views.C75_row_values_partial", "Verif.Views.C75_row_values_violated"], "note": "Right for the first channel; for another channel the code reads the first channel all the same."},
{"property": "C76", "status": "partial", "theorems": ["Verif.Views.C76_diagonal_partial", "Verif.Views.C76_diagonal_violated"], "note": "The shape, the zeros off the diagonal and the first diagonal element are right; the other diagonal elements are not (C76_diagonal_violated)."},
{"property": "C77", "status": "proved", "theorems": ["Verif.Views.C77_channel", "Verif.Views.C77_sum_channels", "Verif.Views.C77_sum_to_channel"], "note": ""},
{"property": "C78", "status": "partial", "theorems": ["Verif.Inverse.C78_matdiv_partial", "Verif.Inverse.C78_matdiv_violated"], "note": "The code divides the other way round; see the theorems."},
{"property": "C79", "status": "proved", "theorems": ["Verif.Views.C79_elementwise", "Verif.Views.C79_add_subtract", "Verif.Views.C79_multiply_divide"], "note": "A zero divisor is replaced by 1e-8 by design."},
{"property": "C80", "status": "partial", "theorems": ["Verif.Views.C80_full_partial", "Verif.Views.C80_convolve_partial", "Verif.Views.C80_full_shape_violated"], "note": "Right for kernels up to 3 by 3; from 4 rows or columns on the padding is too small."},
{"property": "C81", "status": "proved", "theorems": ["Verif.Statistics.C81_sum_product", "Verif.Statistics.C81_extremes", "Verif.Statistics.C81_mean_variance"], "note": "Exact arithmetic."},
{"property": "C82", "status": "partial", "theorems": ["Verif.Statistics.C82_norm_partial", "Verif.Statistics.C82_zero_norm_violated"], "note": "The zero tensor yields 0/0."},
{"property": "C83", "status": "proved", "theorems": ["Verif.Parser.C83_tokens", "Verif.Parser.C83_source", "Verif.Parser.C83_repeated_inputs"], "note": "Against a grammar given as inductive relations (Verif/Spec/Script.lean). Number conversion stof is a parameter."},
{"property": "C84", "status": "partial", "theorems": ["Verif.Interpreter.C84_command_partial", "Verif.Interpreter.C84_session_partial", "Verif.Interpreter.C84_error", "Verif.Interpreter.C84_violated"], "note": "Blank lines are undefined behaviour."},
{"property": "C85", "status": "partial", "theorems": ["Verif.Training.C85_partial", "Verif.Training.C85_violated"], "note": "The timer restarts with every epoch, so only the duration of single epochs is limited."},
{"property": "C86", "status": "partial", "theorems": ["Verif.Training.C86_partial", "Verif.Training.C86_violated"], "note": "The strategy keeps its state between trainings."},
{"property": "C87", "status": "partial", "theorems": ["Verif.Training.C87_partial", "Verif.Training.C87_violated"], "note": "Holds for the best-retention policy only."},
{"property": "C88", "status": "proved", "theorems": ["Verif.Training.C88"], "note": "Exact arithmetic."},
{"property": "C89", "status": "partial", "theorems": ["Verif.Graph.C89_partial", "Verif.Graph.C89_violated"], "note": "A layer is applied once per path to the output; a shared layer with weights makes training throw."},
{"property": "C90", "status": "partial", "theorems": ["Verif.Activation.C90_single_partial", "Verif.Activation.C90_softmax_partial", "Verif.Activation.C90_softmax_violated", "Verif.Activation.C90_batch_partial", "Verif.Activation.C90_batch_violated"], "note": "Holds for one example and every function but the sigmoid approximation and softmax; softmax multiplies the gradient by its input."},
{"property": "C91", "status": "partial", "theorems": ["Verif.Layers.C91_total_derivative", "Verif.Layers.C91_gradient_partial", "Verif.Layers.C91_joined_total_derivative", "Verif.Layers.C91_joined_partial", "Verif.Layers.C91_flatten_violated"], "note": "Chains and trees of layers (no layer feeds two others), real arithmetic, away from the kinks of rectifiers, not the sigmoid approximation or softmax; flattening several channels makes training throw."},
{"property": "C92", "status": "partial", "theorems": ["Verif.Layers.C92_gradient_partial", "Verif.Layers.C92_apply_partial", "Verif.Layers.C92_mbgd_partial", "Verif.Layers.C92_descent_partial", "Verif.Layers.C92_mse_partial", "Verif.Layers.C92_joined_gradient_partial", "Verif.Layers.C92_joined_apply_partial", "Verif.Layers.C92_joined_mbgd_partial", "Verif.Layers.C92_joined_descent_partial"], "note": "Chains and trees of layers as in C91 without clipping, real arithmetic."},
{"property": "C93", "status": "partial", "theorems": ["Verif.Layers.C93_kernel_partial", "Verif.Layers.C93_input_partial", "Verif.Layers.C93_apply", "Verif.Layers.C93_depth_violated", "Verif.Layers.C93_large_kernel_violated", "Verif.Layers.C93_l2_violated", "Verif.Layers.C93_batch_violated", "Verif.Layers.C93_filters_violated"], "note": "Kernels up to 3x3, one example, input error for one channel only. Violations: the error returned has one channel whatever the input; kernels of four or more rows always throw in training; the L2 option only scales the gradient; changes of a batch are summed, not averaged; all filters of a layer share one momentum."},
{"property": "C94", "status": "partial", "theorems": ["Verif.Layers.C94_partial", "Verif.Layers.C94_joined", "Verif.Layers.C94_convolution"], "note": "Chains and joined branches of dense, bias, activation and flatten layers, and the convolution layer by itself."},
{"property": "C95", "status": "partial", "theorems": ["Verif.RandomTensor.C95_in_range", "Verif.RandomTensor.C95_xavier", "Verif.RandomTensor.C95_neurons", "Verif.RandomTensor.C95_filters", "Verif.RandomTensor.C95_layers_partial", "Verif.RandomTensor.C95_layers_violated", "Verif.RandomTensor.C95_equal_bounds_violated"], "note": "Real arithmetic. With mini-batch gradient descent all layers of the same shape start equal; equal bounds give NaN."},
{"property": "C96", "status": "partial", "theorems": ["Verif.NormLayers.C96_order", "Verif.NormLayers.C96_weights", "Verif.NormLayers.C96_constant_violated", "Verif.NormLayers.C96_gradient_violated"], "note": "Order and shape for all tensors; the mean that is subtracted and the error that is handed down are wrong (witnesses)."},
{"property": "C97", "status": "partial", "theorems": ["Verif.Hyperband.C97_partial", "Verif.Hyperband.C97_single_violated", "Verif.Hyperband.C97_nan_violated"], "note": "At least two configurations and no NaN; a search over one configuration returns nothing, a NaN that arrives first stays best."},
{"property": "C98", "status": "partial", "theorems": ["Verif.Hyperband.C98_violated"], "note": "The exit strategy that holds the budget is never handed to the network."},
{"property": "C99", "status": "proved", "theorems": ["Verif.Hyperband.C99_batch_sizes", "Verif.Hyperband.C99_count", "Verif.Hyperband.C99_initial", "Verif.Hyperband.C99_draw", "Verif.Hyperband.C99_initial_configurations"], "note": ""}
]}
