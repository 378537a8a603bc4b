# Formal model of happyml — design

Subject: `erikhyrkas/happyml`, C++ sources under `/repo/src` (read as text, never built or run).
Tool: Lean 4.33.0, Mathlib imported one module at a time.

## Layout

* `properties.jsonl` — the properties, one per line, stated for users of the library.
* `lean/Verif/Model/*.lean` — the model: total functions, each with a comment citing the `/repo` file and
  lines it models and any simplification.
* `lean/Verif/Spec/*.lean` — specifications that do not use the model's helpers: token kinds, script grammar,
  total derivatives, training histories, values of a network, tables as printed, network descriptions.
  Smaller specifications stand at the top of the property files.
* `lean/Verif/Lemmas/*.lean` — helper lemmas.
* `lean/Verif/Props/*.lean` — the property theorems (the ones listed in `MANIFEST.json`), each with the English
  claim and an `example` that meets its hypotheses.
* `lean/Verif.lean` — imports everything.
* `seeded/LOG.jsonl` — wrong programs that were tried against the theorems.

## Conventions

* Undefined behaviour in C++ (index outside a vector, `back()` of an empty container, integer division by zero,
  use of a null pointer) is a distinct outcome (`none`, an `Except` error, or a constructor of an outcome
  type), never a default value. Exceptions are outcomes, too; where a property tells them apart from undefined
  behaviour, so does the model.
* Fixed-width integers are `BitVec n`, or natural numbers with explicit wrap-around, where wrap-around matters;
  `Nat`/`Int` elsewhere. `size_t` has 64 bits, `int` 32, the machine is little endian.
* Floating point. Conversions between formats, storage and file formats are modelled on bit patterns, exactly.
  Control flow that compares floats (exit strategy, hyperparameter search, normalization constants) is
  modelled over numbers extended by infinities and NaN, or over an arbitrary comparison. Split sizes of
  datasets (C19) and decimal texts (C101) use exact IEEE arithmetic (`Model/FloatArith.lean`). Numerical
  formulas (losses, layers, optimizers, statistics, products) are over an arbitrary field, ordered field or the
  reals, that is without rounding and overflow; a division by zero is `none` unless the code guards it.
  Rounding errors are bounded for predictions of chains of layers (C126, C130), single updates (C128) and the training of label tables (C139) only. The activation functions are also
  modelled on every 32-bit float (C133, softmax C135), as are the losses (cross-entropies C134, distances C138) and the adam (C136) and sgdm (C137) optimizers; there `exp`, `log`, `tanh`, `powf` and `sqrt` of the C library are parameters with stated assumptions (`Sound`, `SoundLog`, `Squares`), because neither the
  C++ nor the IEEE standard says what they return. `exactLibm`, `exactLog` and `exactRoots` show that the assumptions can be met.
* Characters are bytes; the C character functions are those of the "C" locale.
* Files are byte or line lists, the disk is a map from paths to entries. The operating system, permissions, I/O errors (except
  when a model is saved, C131), and `std::` containers are not modelled beyond their documented contract (an
  `unordered_map` has an arbitrary order, `sort` and `partial_sort` return any result their contract allows).
* Threads: where results are combined under a lock the theorems hold for every order of the combinations.
* Random choices, the clock, directory order and the results of training inside the searches are universally
  quantified inputs.
* Loops that the code does not bound are given fuel; the theorem then says that some fuel (stated) suffices, or
  that none does.
* Where the code violates the property as a user would state it, the violation is proved (theorem named
  `..._violated`), and the strongest true restriction found is proved with the suffix `_partial`. The file and
  the manifest say what is missing.

## Trusted base

* Lean's kernel.
* The axioms `propext`, `Classical.choice`, `Quot.sound`, at most. No own axioms, no `sorry`, no `native_decide`,
  no `bv_decide`, nothing `unsafe` or `implemented_by`. `decide +kernel` is evaluated by the kernel. To list the
  axioms of a theorem: `#print axioms Verif.Bytes.C01_write64`.
* The faithfulness of the model to the cited lines, including the simplifications in the comments.
* The statement of each property theorem and of the specifications it uses.

## What is modelled

| source | model | properties |
|---|---|---|
| util/portable_bytes.hpp | Bytes, Decimal | C01, C101 |
| types/half_float.hpp, quarter_float.hpp, tensor_impls/half, quarter | HalfFloat, QuarterFloat, FloatBits, QuarterArith (arithmetic on 8-bit floats) | C02–C05, C140 |
| types/tensor_impls/tensor_allocators.hpp, materializeTensor, estimateBias | EstimateBias | C53 |
| types/trie.hpp | Trie | C06 |
| the LRU cache of util/file_writer.hpp | LruCache | C07 |
| util/text_encoder_decoder.hpp, string_replace_all | TextCodec, ReplaceAll | C08, C09 |
| ml/byte_pair_encoder.hpp | Bpe, BpeFiles | C10–C12, C127 |
| util/data_util.hpp | Tokenizer, Lines, Shuffler, ModelFiles, Interrupted | C13, C14, C20, C103–C105, C131 |
| util/file_writer.hpp, file_reader.hpp | Csv, LineReader, Lines, BinaryDataset | C15, C16, C24–C28 |
| util/text_file_sorter.hpp | FileSorter | C17 |
| util/shuffler.hpp | Shuffler | C18 |
| training_data/training_dataset.hpp | DataSet, Columns | C19, C21, C49 |
| util/one_hot_encoder.hpp | OneHot | C22, C23 |
| ml/rotary_positional_embedding.hpp, util/text_embedder.hpp | Embedding | C115–C117 |
| types/base_tensors.hpp, tensor_views/*.hpp, util/tensor_utils.hpp | Tensor, Views, Inverse, Statistics, FloatStatistics (with the roundings of `double`, Double), FloatColumn, FloatNormalization, FloatIndex, GeometricMean | C29–C41, C57, C75–C82, C144–C146, C149, C154 |
| tensor_impls/tensor_from_random.hpp, tensor_from_xavier.hpp | RandomTensor | C95 |
| main.cpp, lang/lexer, lang/parser, lang/statements, lang/interpreter.hpp | Lexer, Parser, Interpreter, Program | C42–C47, C83, C84, C152, C156 |
| util/dataset_utils.hpp, lang/statements/create_dataset_statement.hpp | Columns, Statistics, CreateDataset, DatasetFiles (the files on the way), LoadDelimited, ConvertTsv | C38, C48–C50, C121, C143, C147, C150 |
| types/tensor_impls/full_, half_, quarter_tensor.hpp, util/tensor_utils.hpp (storing and loading with a number of bits) | Materialize | C124 |
| types/tensor_impls/pixel_tensor.hpp, tensor_allocators.hpp | BinaryDataset, FloatArith, Pixel | C24–C28, C122 |
| training_data/data_encoder.hpp, data_decoder.hpp | Encoders, Picture | C39, C51, C52, C118 |
| ml/exit_strategy.hpp | ExitStrategy | C54 |
| ml/neural_network_node.hpp | Graph, GraphFailure, SavedFlags | C55, C56, C58, C89, C102, C123 |
| ml/neural_network.hpp | Training, ChainTraining, ModelFiles, Accuracy, Interrupted, Facts | C59–C63, C85–C88, C103–C105, C113, C114, C125, C131, C153 |
| ml/happyml_dsl.hpp | Dsl, Wiring, ModelFiles, LinearModel, Rebuild | C59, C60, C106–C108, C125, C129 |
| ml/hyperband/*.hpp | Hyperband, SearchNetwork (the networks that are tried), SearchDraw (drawing configurations) | C64, C65, C97–C99, C132, C148 |
| util/task_utils.hpp, lang/statements/create_task_statement.hpp | LabelTask, LabelNetwork, TaskInputs, Execute, TaskFiles (the folder of a task), ModelName (what a model may be called), VariantText (how a value of a script is printed) | C66, C109–C112, C119, C120, C142, C151, C155 |
| linear models of labels trained in floats (full layer, mse, sgd) | FloatTable | C139 |
| ml/losses/*.hpp | Loss, FloatLoss (cross-entropies on every 32-bit float), FloatDistance (mse, mae and smae on every 32-bit float) | C67, C134, C138 |
| ml/activators/*.hpp, layers/activation_layer.hpp | Activation, FloatActivation and FloatSoftmax (every 32-bit float) | C68, C69, C90, C133, C135 |
| ml/optimizers/*.hpp, optimizer_factory.hpp | Optimizer, FloatUpdate (sgd in floats), FloatAdam (adam in floats), FloatMomentum (sgdm in floats) | C70, C128, C136, C137 |
| ml/layers/*.hpp | Layers, Joined, Convolution, NormLayers, FloatNetwork (with Float32), Precision | C31, C41, C73, C91–C94, C96, C126, C130, C160 |
| util/tensor_stats.hpp | TensorStats, Recommend (recommended bias and offset, one thread, exact numbers) | C71, C100, C141 |
| ml/enums.hpp | Enums | C72 |
| util/pretty_print_row.hpp | PrettyPrint, PrintRow (one row of numbers), PrintTensor (a whole tensor as text, base_tensors.hpp and data_decoder.hpp), ShowColumn (from the source of a dataset to the printed record) | C74, C157–C159 |

`Props/Literals.lean` belongs to no property: it proves that bit patterns and bytes written in the models are those of the decimal and text literals of the source, that ties are rounded to even, and what the arithmetic does with infinities.

Not modelled: `basic_profiler.hpp`, `timers.hpp` (except as a clock), `unit_test.hpp`, the examples and tests,
`TextEncoder` in `data_encoder.hpp` (unused), progress output, messages of exceptions, the help texts, rounding of numerical formulas other than predictions with elementary activations (C126), activation functions (C133, C135), losses (C134, C138), sgd updates (C128), adam updates (C136), sgdm updates (C137) the training of label tables (C139) and means, spreads, dataset columns and the normalization layer (C144–C146), the C++ memory model beyond locks, running out of memory or disk.

## How each property is proved

| id | proof |
|----|-------|
| C01 | bit vector extensionality over the byte-reversal loops |
| C02 | magnitude order on bit patterns, `toNat` arithmetic |
| C03–C05 | complete tables over 256 codes × 15 biases by kernel evaluation; case analysis for the 2^32 side |
| C06 | refinement of the trie to a map by induction over insertions |
| C07 | invariant over histories of inserts; witnesses |
| C08, C09 | induction on the text; uniqueness of the leftmost replacement |
| C10–C12 | induction over the code table; measure for termination; parser/printer |
| C13, C14 | invariant: emitted ++ pending = consumed |
| C15, C16 | induction over the character automaton and over the files |
| C17, C18, C20 | sortedness and permutation invariants |
| C19, C21 | exact IEEE arithmetic of the split; permutations |
| C22, C23 | list lemmas with an explicit out-of-bounds outcome |
| C24–C28 | parsers applied to printers, for all schemas and rows |
| C29–C41, C75–C82 | index arithmetic, finite sums, invariant of Gauss–Jordan elimination |
| C42–C46, C83 | longest match against an independent token description; parsing against a grammar given as inductive relations |
| C47, C84 | induction over statements and commands |
| C48–C52 | interval and list lemmas |
| C53, C54 | case analysis over extended numbers; counting epochs |
| C55–C58, C89 | induction over graphs and over the order of visits |
| C59, C60, C103–C105 | invariant of builder calls (`run_sound`), depth-first correspondence between description and loading, disk frame lemmas |
| C131 | frame lemmas (`Keeps`) over the relation of all disks reachable during a call; locality of reads (`local_load`) for shortened files |
| C142 | the frame lemmas of C131 along the steps of the statement, with the search as an arbitrary sequence of checkpoints; trees preserved, then saving into a fresh folder (C59) |
| C143 | the statement as a list of acts on files, each with its path (frame lemmas for every prefix and every half-written file); sorted lines are unique (`IsSorted.unique`, C17) |
| C144 | `double` as rational numbers with a rounding function (monotone, exact on what can be held); a step of the average stays between the old average and the new value (`step_between`); errors by induction; two different floats are far enough apart for `double` to see it (`gap`); quotients of floats from the rounding lemmas of C126 |
| C145 | the root as the nearest number with 53 bits (integer root); the variance is at most the square of the range rounded up to a power of 2, because multiples of it need no rounding (`squares_le`); errors of the eight operations by three lemmas over real numbers; small numbers vanish in a sum because rounding is to the nearest float and floats are far apart (`vanish`, `gap`) |
| C146 | the largest element between two powers of 2, 2^(E−1) and 2^E; a step of the average stays near, so the sum of squares is bounded below by the largest element alone and at most 2^(2E+2) per element (`step_run`); bounds of the seven products and quotients by four lemmas over real numbers (`mul_upper`, `mul_lower`, `div_upper`, `sub_upper`) |
| C147 | the loop is reading all records followed by encoding each of them (`loadLines_ok`, by induction over the lines); composed with the round trips of C15 and C16 and the layouts of C51 |
| C148 | the text is cut at its commas, and printing with eight digits is injective on each list of the space (checked over the whole lists); then drawing by texts is drawing by configurations, to which C99 applies; the count by the list of all combinations |
| C149 | one invariant for all four loops, with a key that is to be largest (the number, or its opposite); rounding is monotone and the tolerance is a float, so comparing rounded differences is comparing the differences up to one step |
| C150 | scanning a line of plain cells with the delimiter a tab (induction over the cells); then C15 for what is written |
| C151 | an invariant of the builder's calls (the name is accepted), the letters by inspection of all 256 bytes; then C131 and C142 for the folder |
| C152 | induction over the scripts (`Completed`), with C47 for each of them |
| C153 | C58 for the graph that C106 wires, every vertex of which can be reached; sums modulo 2^64 |
| C154 | induction over the elements; the tangent of the logarithm for the arithmetic mean |
| C155 | two roundings, each off by less than the spacing of six digits; the carry into a new digit by cases; conversely the printed text is stripped digit by digit |
| C156 | the lexer on written tokens (C83), then the parser by cases on the label of the word |
| C157 | induction over the numbers of a line, with the width as part of the state of the stream; nearest rounding |
| C158 | closed form of the three loops, splitting at newlines, blocks of equal length; reading back is C101; `C158_injective`: cutting at commas |
| C159 | the error of C145 and the error of rounding to three decimals, triangle inequality |
| C160 | induction over the queue of inputs; the sum in the order of the queue is the sum of the list |
| C106 | connections of a built network are a permutation of the edges (`wires_ok`); shapes by strong induction over the vertices |
| C107, C108 | the order of wiring in depth-first forests and of branches that are joined |
| C109, C110 | the vertices described by the calls, for all columns (`labelOps_ok`); then C106 and C107 up to the last hidden layer |
| C132 | builder calls as growth of a chain (`Line`, `Good`) by induction over the hidden layers; then C106 for the chain and one step for each output |
| C111 | the map of the parser against the last value written; induction over the columns |
| C112 | layers read only elements: congruence along the vertices, from the encoders (C51) and C111 to the predictions |
| C115–C117 | loop invariant; injectivity of the sine up to π/2; expansion of codes is a homomorphism, so concatenated codes can be split (with C10, C13, C22) |
| C118 | the cells are a multiple of the brightness; the largest of them |
| C119, C120 | rescaling with the same constants is the identity; then decoding after encoding (C38, C39, C51, C52) and C113 |
| C121 | composition of C15, C17, C26, C38, C48, C49, C51 and C52 along the steps of the statement |
| C122 | rounding keeps order around multiples of 1.0; a table of all 256 levels (`decide +kernel`) |
| C123 | a pass without exceptions is one of C55; nodes with one input for every state; induction over later predictions for the counterexamples |
| C124 | the bias as the largest one whose range holds all elements; the largest code bounds what is stored; tables of all codes and biases (`decide +kernel`) |
| C125 | descent of a quadratic objective along its gradient, summed over the epochs; the layers, loss and optimizer of C67, C70, C91, C92 inside the loop of C61 |
| C126 | half an ulp per operation from the definition of rounding (`roundUnits`); errors of sums by induction, then through the layers; assumes that C++ `float` is IEEE binary32, that every operation is rounded (no fused multiply-add, no extra precision) and that the rounding mode is to nearest |
| C133 | rounding is monotone (`rounded_mono`), so are the operations built on it (`add_mono`, `mul_mono`, `div_anti`); the order of floats is the order of their values, infinities included |
| C134 | the same monotone operations, with bounds for products and quotients by numbers below and above 1; the smallest corrected input is found from the order of the sigmoid |
| C135 | the error of the sum in double by induction over the elements, half an ulp for the conversion and for each quotient; then one inequality over the reals |
| C136 | invariants of the moments by induction over the updates; a change of at most 2^89 is absorbed by rounding at the largest float; infinity absorbs what is added to it |
| C137 | invariant of the momentum by induction over the updates; neighbouring floats differ by at most a tenth, so 0.9 times a float is smaller, by strong descent on the units; nearest rounding and gaps between floats for the weight at rest |
| C138 | differences are rounded monotonically and never to 0, so sign and order survive; squares by their order and three exact values |
| C139 | each rounding bounded so that a change is at most the distance; subtraction rounds monotonically, so it does not pass the truth; a monotone sequence in the finite set of floats ends; the error bound of the last update |
| C140 | each operation is one rounding of the exact result (RoundingOrder); the rounded float stays between floats, so the case analysis of the encoder (C03–C05) applies; bit-level commutativity and neutral elements |
| C141 | representatives of bag entries are elements and bound the others of one sign (C71); the ends of the quartiles are the ends of the sorted bag (C100); induction over the biases still to be tried |
| C127 | invariant of the vocabulary during training (pairs that were counted, codes that were given); sorted tables; weights of codes preserved by replacement |
| C128 | rounding gives a nearest float (so it never crosses a float); distances between neighbouring 16-bit values; induction over the updates; same assumptions on `float` as C126 |
| C129 | invariant over all sequences of calls: a build only adds vertices that have no layers yet, and connections that start at them |
| C130 | one induction over the layers (products, sums, activations that are 1-Lipschitz by the mean value theorem); the error of one element from C02, C05 and C53 |
| C113, C114 | loop invariant of the two counters; then C52 for labels |
| C102 | invariant of the flags over all sequences of training, saving and loading |
| C61–C63, C85–C88 | loop invariants against a declarative training history |
| C64, C65, C97–C99 | loop invariants for all metrics, thread orders and sort results |
| C66 | progress measure; for the endless run, induction over the fuel |
| C67–C69, C90–C93 | Mathlib calculus over the reals; total derivatives of chains, and of trees joined by concatenation, by induction |
| C70 | induction over sequences of calls |
| C71, C100 | commutation of merges; running sums |
| C72 | complete tables |
| C73, C74, C95, C96 | algebra, induction over rows, real arithmetic |
| C94 | induction over chains, trees and sequences of predictions |
| C101 | rounding error of 15 decimals below half a unit of the float format |

## Where the code disagrees with the property

Each line is proved (`..._violated`, unless another theorem is named).

Storage and text
* C03, C04, C05: with large biases the 8-bit code 0x80 is not stable; small negative numbers become positive; NaNs
  with other payloads become finite numbers.
* C07: the cache exceeds its capacity, or forgets recent keys, when keys are inserted again; capacity 0 is undefined behaviour.
* C08: six delimiters still occur in escaped text.
* C127: byte-pair training counts pairs once; pairs of new codes are not counted, so one call never makes a code for more than two symbols, and pairs that
  overlap a more frequent one get codes that are never used. `num_merges = 0` makes one merge. `train_on_file` and `train_on_folder` on a trained encoder count with
  the old codes and then drop them: the new codes never apply.
* C11, C12, C22: repeated training hands out reserved codes; an empty token is undefined behaviour; loading into a used
  encoder mixes tables; one-hot encoding writes out of bounds for the largest code and for bytes from 128 on.
* C115: fewer tokens than the sequence length give fewer rows than `calculate_result_shape` promises; length zero throws.
* C117: a loaded encoder forgets its largest code, so embeddings of different texts coincide and rows are written out of bounds.
* C15: fields with quotes, enclosing characters, surrounding white space or numeric prefixes, and empty records, are not read back.
* C16: an empty, header-only or unreadable file hides all later files.
* C101: small floats change in the configuration file, the smallest become zero.

Datasets
* C19: the splits of the label-task search overlap; above 2^24 rows a split can claim rows that do not exist.
* C24: a schema without values divides by zero. C26: rows that differ beyond the 15th decimal are dropped as duplicates (and only those, up to collisions of the hash: the text tells shapes and differences above 10^-15 apart).
* C27: all columns are renormalized with the constants of the first one.
* C38: constant columns divide by zero; standardized columns leave [0, 1].
* C48: groups that share the last column of one of them are accepted. C50: a late sentence end is written twice.
* C51: task inputs are transposed, images are not scaled. C112: so a task with a single given column of one row, for example a label, throws an exception when it is executed
  with inputs, although it was trained. C111: too few values for a column are undefined behaviour; columns whose names differ only in case
  cannot get different values.
* C118: the picture of an image with an odd number of rows is too bright in its last line; two channels are blank; values above one look the same.
* C119: when a dataset is opened for a task, every given column is rescaled to the first target column (`given_offset` is never advanced in `file_reader.hpp:256-283`); `execute_task_with_dataset` uses the ranges and labels of the dataset instead of those of the task.
* C120: test data with other labels is decoded with the labels of the training data, so wrong predictions can count as right.
* C121: tsv and txt files are looked for under a name that starts with `file://`, so the statement always fails, and empties a csv file of the same name. Text columns
  and labels in more than one column throw. Of records with the same given values only one is kept. A blank record of a single number column is lost.
* C122: values are truncated to a level, not rounded to the nearest one (0.999 becomes 254/255).
* C124: with 8 bits, storing what was stored before can change it again: if an element was rounded to the largest number of the format, the next storing uses a
  smaller bias, and small elements become zero or change their sign. NaN stored with 8 bits is a number after saving and loading.

Tensors
* C31: channel counts are not checked. C35, C73, C67: the masked select never takes its second tensor, so the smooth mean absolute error is always
  quadratic and dropout never drops. C36: the standardize view uses a wrong mean. C41, C80, C93: kernels larger than the input wrap around;
  from 4×4 on full correlation pads too little and convolution layers cannot be trained.
* C75, C76, C78, C82: reading a row of another channel, the diagonal of a row, division by a matrix, and the norm of zero.
* C71, C100: the value of a bucket depends on the thread schedule; the 10, 50 and 90 percent values can be wrong; the empty tensor is undefined behaviour.

Scripts
* C45, C46, C47, C84: some scripts make the parser throw; no text can end in a backslash; `exit` before the end is ignored; a blank
  line is undefined behaviour.

Networks and training
* C126: predictions overflow to infinity or NaN without an error (finite weights and inputs, exact result 0), and small terms vanish beside large ones: 2^24 + 1 - 2^24
  is predicted as 0.
* C128: layers with 16 bits keep 8 significant bits and truncate towards zero, so small learning steps away from zero are lost and every step towards zero takes at
  least a 256th of the weight: up and down, weights shrink. With 8 bits the common bias of a tensor changes weights that have no gradient, even their sign.
* C130: with 8 bits parameters of 1920 and more are cut off to 1920, and negative parameters that are small against the largest one of their layer
  become positive, so the sign of a prediction can change.
* C129: the layers made by `build` stay in the description (`reset` is never called), so a second `build` returns a network without outputs, and saving it
  writes a configuration without layers.
* C125: with the default learning rate of sgd, training a linear model diverges when the inputs are not small (mean squared length above about 100), although
  the model could fit the data exactly.
* C113, C114: the accuracy ignores wrong records after 2^24 right ones; binary accuracy compares only as many elements of a column as there are
  columns, so a wrong prediction can count as right, and several columns of one element throw an exception.
* C56: the error that arrives last is counted twice. C89: a shared layer is updated once per path; with weights this throws.
* C123: a pass that ends with an exception does not empty the connections. With two joined inputs, later predictions silently use the second input of
  the prediction before, or all of them throw.
* C59: without overwriting, weights and configuration are saved in different folders and the model cannot be loaded. C60: loading exchanges
  weights when layers were not described depth first and duplicates layers with skip connections. C102: after training, a layer that leads to
  no output is not saved. C103: a clash of time stamps replaces another configuration. C104: saving a model deletes all other labels.
* C131: overwriting removes the old model before anything of the new one is written, so a stop in between leaves neither. Streams never throw (no call of
  `exceptions`) and their state is not checked, so a full disk or a file that cannot be opened goes unreported: `BaseTensor::save` always returns true.
* C142: names of tasks are not checked: `create task label . using d` empties the folder of all tasks. An existing task is reported as created, whatever the
  dataset. A task is complete for the program as soon as there is a configuration; a stop before `dataset.bin` is written leaves a task that cannot be
  executed and that creating it again does not repair.
* C143: the files made on the way have names a user can have given (`x.sorted.csv`, `x.given-expected.csv`, `chunk_0.txt` beside the source); they are
  overwritten and removed. For a source without a folder `parent_path()` is empty and the chunks go to `/chunk_0.txt`; if that cannot be written, nothing is
  reported, no chunk is merged and an empty dataset is created. A dataset stopped while it is written counts as existing. After an exception files stay.
* C144: a column with one value normalizes to NaN (0/0); a column whose range is no `float` normalizes to 0, its largest values to NaN.
* C145: a standardized column is normalized with the smallest and largest value from before standardizing. If 2^27 times the range is at most the deviation times the smallest value, all values of the column are stored as one number, for example 2^29 and 2^29 + 64.
* C146: the normalization layer with elements 2^-149 and seven zeros computes infinity and NaN (the deviation is rounded to zero after the test for zero). With elements 2^-50 and 0 its results are finite but the error handed down is infinite (the third power of the deviation is rounded to zero).
* C147: a path that cannot be opened is loaded as an empty dataset, without an error; a record with too few columns (a blank line at the end of the file) advances an iterator past the end of a vector, which is undefined.
* C149: a prediction full of NaN is decoded as the first label; the tolerance of `roughlyEqual` is absolute although it is described as a multiple of the precision, and infinities are not equal to themselves.
* C150: converting a tab-separated file cuts `12 A St, B` into two cells, since what begins like a number is not quoted; a single quotation mark makes the conversion throw after part of the csv file is written.
* C151: the builder accepts the empty name, and saving such a model with overwriting removes the whole repository; a refused name stays in the builder; a task may be given a name in quotes, which the builder then refuses after the old folder of the task is removed. A name with a byte from 128 to 254 is undefined behaviour (`isalnum` of a negative number).
* C155: a number that is a label is found by its unquoted text only if it has at most six significant digits, no needless zeros and needs no exponent: the encoder compares the label with the float printed in the default format. `1000000`, `1.50` and `007` are unknown labels.
* C156: a value or column that happens to be a keyword, such as `text`, `label`, `speed` or `Future`, must be quoted. The keyword `number` has the same token label as numbers, so that as a value it is given to `stof`, whose `invalid_argument` is not caught by the parser.
* C157: only the first number of a printed line is filled to eight characters, because `std::setw` holds for one output; numbers below each other are not aligned.
* C158: the text of a tensor has 15 decimals at most, so that different small numbers have the same text (2^-149 is shown as 0).
* C159: a printed dataset can show other numbers than its source, if the numbers are large and the deviation is small (the loss is that of C145). A column of equal numbers is stored as NaN and shown as `nan`.
* C160: an error that comes back once is combined with the mean of the queued inputs, which is not the gradient of any of the uses.
* C152: the exit code is 0 although a script cannot be opened, cannot be parsed, or has a statement that fails; the scripts after it are run.
* C153: a network with 2^64 parameters reports that it has none (the sum is reduced modulo 2^64).
* C62: a smaller last batch is weighted wrongly. C85: the time limit restarts with every epoch. C86: a second training starts
  with the exhausted strategy of the first. C87: the reported loss may belong to other weights.
* C64: hyperparameter search keeps the worst. C65 (outside the claim): factor 1 never ends. C97: one configuration yields nothing, an
  early NaN stays best. C98: the budget is ignored. C66: the label search need not end. C109: a single given column with one row and several channels
  makes every prediction throw, as does an expected column with several rows or channels. C110: the search tries complexities for which no hidden layer has a unit;
  predictions then ignore the inputs.
* C132: a dropout layer flattens its input, so in a convolutional network the next convolution gets one row and subtracts beyond zero; every prediction throws.
  Nothing keeps the number of convolutions below what the image allows. The dropout rate of a configuration is only compared with 1e-8: all positive rates
  describe the same network.
* C133: `leaky_relu` and `sigmoid_approx` turn infinities into NaN (0 times infinity, infinity by infinity); rounding makes `sigmoid_approx` decrease
  between some neighbouring floats; sigmoids reach 0 and 1, where the derivative is 0.
* C134: a sigmoid of 17 or more is exactly 1; with the truth 0 (the worst answer) cross-entropy hands down 0, so it is never corrected. A prediction below
  2^-127 has an infinite derivative for the truth 1.
* C135: the outputs of softmax need not sum to 1 (three equal inputs sum to more), and different inputs can get equal outputs. One infinite or NaN input makes
  every output NaN.
* C136: the square of a gradient of 2^64 or more is infinite, so is the second moment from then on, and adam divides by its root: the weight never changes
  again. An infinite gradient makes it NaN. Gradient clipping is off unless asked for.
* C137: 0.9 times 2^-147 is rounded to 2^-147, so the momentum of sgdm need not die out, and a weight near 0 goes on drifting when there are no gradients; an
  infinite gradient is never forgotten; and the decayed learning rate (sgdm_optimizer.hpp:105-124, adam_optimizer.hpp:101-124) takes the sign of the average
  momentum along: for a negative average it is the lower bound, 1e-5, however far training is from its goal.
* C138: on floats the derivative of mae has the wrong sign for every wrong prediction; mse and smae are 0 for differences of up to 2^-76 and infinite from 2^64 on.
  smae is always half the square (base_tensors.hpp:733-741 stores the second tensor twice), never linear.
* C139: training in floats stops at about an ulp divided by the learning rate from the truth (rate 0.01: 1 stays 1 when 1 + 2^-19 is shown); the rate 1 jumps
  from one side to the other for ever.
* C140: 8-bit arithmetic: a number minus a larger one can be positive, zero times a negative number is positive (small negative results are stored
  as code 0x80, which stands for a positive number), and a result of exactly the lowest power of two of the bias is halved or lost.
* C141: the recommended bias needs the recommended offset, which 8-bit tensors do not have, so elements saturate; without required zero, or with
  an entry of mixed signs, elements fall out of the range even with the offset.
* C67: the derivative of the mean absolute error has the wrong sign. C68: wrong slope of the sigmoid approximation. C90: softmax
  layers multiply the gradient by their input; batches are not per example. C91: flatten throws for several channels.
* C70: layers share one decaying learning rate; Adam has no bias correction.
* C73: the dropout rate of the description is ignored, predictions are scaled. C93: see the theorems (channels, L2, batch sums, shared
  momentum). C106: full layers with several rows of output or one row with several channels of input raise exceptions, dropout between images
  changes their shape. C107: outputs are delivered in the order of wiring, not of description. C108: a skip connection is joined in
  the other order, and the parts of its error are cut at the wrong places and sent to the wrong layers. C95: with mini-batch gradient descent layers of equal shape start equal. C96: wrong mean and wrong gradient.
