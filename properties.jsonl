{"id": "C01", "title": "Parameter registry behaves as a map keyed by path", "statement": "After nn.parameter.set_parameter(k, v) succeeds in any registry and any current scope, get_parameter(k) returns v; for a key k' whose path neither is inside k's path nor contains it, get_parameter(k') returns what it returned before. set/pop change exactly the bindings at and below the key's path; a key running through a parameter raises and changes nothing. Lookups never change which variable any key returns. (Refuted in the stronger reading 'a lookup changes nothing': get_parameter('a/b') that returns None creates a scope 'a', after which get_parameter('a') raises AssertionError instead of returning None.)", "quantifier": "every registry tree, every current scope, every pair of keys (any number of '/', empty components included), every value", "why_tests_cant": "keys and trees are unbounded; collisions between differently written keys can only be excluded for all strings at once", "anchors": ["python/src/nnabla/parameter.py: set_parameter, get_parameter, pop_parameter, parameter_scope"]}
{"id": "C02", "title": "'/' in a scope or key is the same as nesting scopes", "statement": "Entering parameter_scope('a/b/c') reaches the same scope dictionary (and creates the same intermediate dictionaries) as nesting parameter_scope('a'), parameter_scope('b'), parameter_scope('c'); get/set/pop with key 'a/b/k' equals the same call with key 'k' inside parameter_scope('a/b').", "quantifier": "every registry, every list of path components, every key", "why_tests_cant": "path depth is unbounded", "anchors": ["python/src/nnabla/parameter.py: parameter_scope, get_parameter, set_parameter"]}
{"id": "C03", "title": "Parameter scope is restored on exit, also when the body raises", "statement": "For every program built from nested 'with nn.parameter_scope(..)' blocks, parameter operations, raise and try/except, the current parameter scope after a block is the one before it, whatever the block did and whether or not it raised; the same holds for nn.no_grad.", "quantifier": "every nesting of blocks and every point at which an exception is raised", "why_tests_cant": "exception points and nesting depth are unbounded", "anchors": ["python/src/nnabla/parameter.py: parameter_scope, no_grad"]}
{"id": "C04", "title": "get_parameters lists every reachable parameter exactly once and its keys resolve", "statement": "nn.get_parameters(grad_only=False) returns a dictionary with exactly one entry per parameter registered under the current scope, in registration order; each returned key k satisfies get_parameter(k) is the listed variable; grad_only=True is the restriction to need_grad variables. Registering all listed (key, variable) pairs into an empty registry (what load_parameters does with what save_parameters wrote) reproduces the same listing.", "quantifier": "every registry reachable through the API", "why_tests_cant": "trees are unbounded in depth and width; key joining could collide", "anchors": ["python/src/nnabla/parameter.py: get_parameters, set_parameter_from_proto, save_parameters, load_parameters"]}
{"id": "C05", "title": "get_parameter_or_create creates at most once and never loses contents", "statement": "get_parameter_or_create(name, shape, init, need_grad) returns a variable sharing the stored array of the registered parameter; a second call with the same name and shape returns the same array contents regardless of the initializer; a call with a different shape raises and leaves the registry's contents unchanged; need_grad of the registered parameter becomes the last requested flag while the returned flag is as_need_grad (False inside nn.no_grad).", "quantifier": "every registry, name, shape, initializer, flag combination, and every sequence of calls", "why_tests_cant": "call histories are unbounded", "anchors": ["python/src/nnabla/parameter.py: get_parameter_or_create, _create_parameter_by_initializer"]}
{"id": "C06", "title": "Context scopes obey stack discipline", "statement": "In every well-nested program of context_scope blocks (with exceptions anywhere), get_current_context() inside a block is the innermost context, after it the previous one; set_default_context succeeds iff no scope is open, and then is what get_current_context() returns outside scopes.", "quantifier": "every nesting and exception point", "why_tests_cant": "histories are unbounded", "anchors": ["python/src/nnabla/context.py: context_scope, set_default_context, get_current_context"]}
{"id": "C07", "title": "Unshuffled DataIterator yields the dataset cyclically in order", "statement": "data_iterator_simple(load, n, B, shuffle=False): for every k, the k-th call to next() returns exactly load(i mod n) for i in [k*B, (k+1)*B), and the reported epoch after it is floor((k+1)*B/n).", "quantifier": "every dataset size n>=1, batch size B>=1 (also B>n and B not dividing n), every number of calls", "why_tests_cant": "arithmetic over all sizes and call counts", "anchors": ["python/src/nnabla/utils/data_iterator.py: DataIterator._next, DataIterator.next", "python/src/nnabla/utils/data_source_implements.py: SimpleDataSource"]}
{"id": "C08", "title": "Each shuffled epoch visits every example exactly once", "statement": "data_iterator_simple(load, n, B, shuffle=True): every window of n consecutive samples that forms an epoch is a permutation of the dataset. (Proved when B divides n; refuted for other B: the tail of a batch that crosses an epoch boundary is drawn from the old order.)", "quantifier": "every n, B, every stream of random permutations, every number of calls", "why_tests_cant": "the random orders and epoch counts are unbounded", "anchors": ["python/src/nnabla/utils/data_iterator.py: DataIterator._next", "python/src/nnabla/utils/data_source_implements.py: SimpleDataSource._generate_order, apply_order"]}
{"id": "C09", "title": "Slices of a data iterator cover the dataset", "statement": "DataIterator.slice(num_of_slices=n, slice_pos=r): with drop_last=False the slices for r=0..n-1 all have the same size ceil(size/n), lie inside [0,size) and their union is the whole dataset; with drop_last=True they are pairwise disjoint, of size floor(size/n), and together miss fewer than n samples.", "quantifier": "every size>=1, n>=1, r<n", "why_tests_cant": "integer arithmetic for all sizes", "anchors": ["python/src/nnabla/utils/data_iterator.py: DataIterator.slice.get_slice_start_end"]}
{"id": "C10", "title": "stop_exhausted ends iteration after floor(size/B) full batches", "statement": "With stop_exhausted=True, next() returns full batches of consecutive samples (of the order in use) and then raises StopIteration, having returned exactly floor(size/B) batches, and keeps raising afterwards. (Proved for use_thread=False; with use_thread=True a call after the first StopIteration never returns, see C11.)", "quantifier": "every size, every batch size >= 1, every number of calls, shuffled or not", "why_tests_cant": "unbounded sizes and number of calls", "anchors": ["python/src/nnabla/utils/data_iterator.py: DataIterator._next, next"]}
{"id": "C100", "title": "Scheduling always terminates", "statement": "The loop of the swap scheduler that cancels prefetches and starts again ends for every recorded iteration, after at most (number of records) x (number of functions) attempts, with a schedule or an error.", "quantifier": "every recorded order, function partition, sizes and limits", "why_tests_cant": "A non-terminating reschedule would need one particular order and limit; tests cannot cover them all.", "anchors": ["src/nbla/lms/swap_in_out_scheduler.cpp: schedule, backtrack_with_prefetch_cancel"]}
{"id": "C101", "title": "A scheduled iteration reads the same data as an unscheduled one", "statement": "Within one scheduled iteration either an error is raised, or every read of an array yields what it would yield without the scheduler, whatever the program accesses; if the program follows the recorded order no error is raised and at the end all arrays have the same contents.", "quantifier": "every program, every recorded order, every schedule that scheduling returns", "why_tests_cant": "Early clears lose data only for programs whose accesses interleave with them in a particular way.", "anchors": ["src/nbla/lms/swap_in_out_scheduler.cpp: sa_callback_tracer, run, schedule_preclear"]}
{"id": "C102", "title": "Many scheduled iterations read the same data as unscheduled ones", "statement": "Over any number of scheduled iterations either an error is raised or every read yields what it would yield without the scheduler.", "quantifier": "every sequence of iterations", "why_tests_cant": "The failure needs one iteration that leaves out a recorded clear and a later one that reads the array.", "anchors": ["src/nbla/lms/swap_in_out_scheduler.cpp: start_scheduling, sa_callback_tracer"]}
{"id": "C103", "title": "Dynamic loss scaling updates with the unscaled gradient or not at all", "statement": "DynamicLossScalingUpdater.update() changes the parameters at most once, with exactly the gradient of the unscaled loss of the last accum_grad batches fed, whatever the scale was and however many attempts overflowed before; if all 101 attempts overflow the parameters are unchanged. After any history the scale is the initial scale times an integer power of scaling_factor.", "quantifier": "every history of updates, every pattern of overflows, every scale, factor, accum_grad and data stream", "why_tests_cant": "The pattern of overflowing batches is unbounded and data-dependent.", "anchors": ["python/src/nnabla/experimental/mixed_precision_training.py: DynamicLossScalingUpdater.update"]}
{"id": "C104", "title": "The loss scale is raised every N updates", "statement": "Without overflows DynamicLossScalingUpdater multiplies the scale by scaling_factor once every N updates.", "quantifier": "every N, factor, initial scale and number of updates", "why_tests_cant": "The exact schedule must hold for every N and every number of updates.", "anchors": ["python/src/nnabla/experimental/mixed_precision_training.py: DynamicLossScalingUpdater.update"]}
{"id": "C105", "title": "Batch normalization normalises with the batch statistics and its running statistics are moving averages", "statement": "In training mode batch_normalization outputs gamma*(x-mean)/sqrt(var+eps)+beta with the mean and (biased) variance of the element's channel over all other axes, returns exactly those statistics, and moves the running mean and variance by an exponential moving average of the batch mean and of the unbiased batch variance, so after any history of batches they are that average of the whole history; recomputation gives the same outputs without touching them; in test mode the given running statistics are used.", "quantifier": "all sizes of the three axis groups, all inputs, all epsilons > 0 and decay rates, every history of batches, optional scale and bias", "why_tests_cant": "Running statistics depend on the whole history of calls, and layout errors show only for particular sizes.", "anchors": ["src/nbla/function/generic/batch_normalization.cpp: forward_impl_batch, forward_impl_global, recompute_impl"]}
{"id": "C106", "title": "Batch normalization gradients are the derivatives through the statistics", "statement": "The gradients written (or accumulated) by backward for x, beta and gamma are the derivatives of the weighted sum of the outputs, of the batch mean and of the batch variance, including the dependence of the statistics on x; in test mode, with the statistics held constant.", "quantifier": "all sizes, inputs, output gradients, parameters, epsilons > 0, with and without accumulation", "why_tests_cant": "Numerical gradient checks compare a few points to a tolerance.", "anchors": ["src/nbla/function/generic/batch_normalization.cpp: backward_impl_batch, backward_impl_global"]}
{"id": "C107", "title": "Converting a graph keeps what it computes", "statement": "GraphConverter.convert with a modifier that leaves functions as they are, and NoGradModifier, returns a new graph whose outputs have the values of the old outputs; IdentityModifier with replaced inputs gives the values on the replacements; RemoveFunctionModifier gives the network in which the removed functions pass their first input on; TestModeModifier gives the network with the changed arguments.", "quantifier": "every computation graph in every topological order with any sharing and functions with several outputs, all values, arbitrary semantics of the functions", "why_tests_cant": "Wiring of converted variables depends on the shape of the whole graph; tests convert a few fixed networks.", "anchors": ["python/src/nnabla/experimental/graph_converters/graph_converter.py: FunctionModifier.__call__, GraphConverter.convert", "python/src/nnabla/experimental/graph_converters/identity.py", "python/src/nnabla/experimental/graph_converters/remove_function.py", "python/src/nnabla/experimental/graph_converters/batch_norm_batchstat.py", "python/src/nnabla/experimental/graph_converters/no_grad.py"]}
{"id": "C108", "title": "Folding batch normalization into the preceding layer keeps the outputs", "statement": "BatchNormalizationFoldingModifier applied to a network in test mode returns a network with the same outputs, in which each Convolution or Deconvolution followed by a batch normalization has absorbed it.", "quantifier": "every graph, all inputs and parameter values, any history of earlier conversions", "why_tests_cant": "Whether a layer is folded depends on all consumers of its output and on parameters left in the global registry.", "anchors": ["python/src/nnabla/experimental/graph_converters/batch_normalization_folding.py: BatchNormalizationFoldingModifierInner"]}
{"id": "C109", "title": "Self folding of batch normalization keeps the outputs", "statement": "BatchNormalizationSelfFoldingModifier replaces every test-mode batch normalization by one scale and one bias and keeps all outputs.", "quantifier": "every graph, all inputs and parameter values, any history of earlier conversions", "why_tests_cant": "The created parameters are found by name in the global registry, so the result depends on earlier conversions.", "anchors": ["python/src/nnabla/experimental/graph_converters/batch_normalization_self_folding.py"]}
{"id": "C11", "title": "Prefetch thread does not change what the iterator returns", "statement": "use_thread=True returns the same sequence of batches, epoch numbers and epoch callbacks as use_thread=False, for every interleaving, and never deadlocks. (Proved for sources whose fetches never fail and up to the first StopIteration. Refuted otherwise: a failed fetch is returned as None without thread and retried with it; after StopIteration a further next() blocks for ever with thread and raises again without.)", "quantifier": "every data source behaviour, every number of next() calls, every interleaving of consumer and prefetch thread at sample granularity", "why_tests_cant": "all schedules and unbounded histories", "anchors": ["python/src/nnabla/utils/data_iterator.py: DataIterator._next, next, __init__"]}
{"id": "C110", "title": "Folding into Affine and folding before a layer keep the outputs", "statement": "The folded weight and bias of an Affine followed by batch normalization, and of a convolution preceded by one (opposite=True), compute the same as the two functions did.", "quantifier": "all sizes, inputs, weights and batch normalization parameters", "why_tests_cant": "Errors cancel when scales are equal or shifts are zero, as they are right after initialisation.", "anchors": ["python/src/nnabla/experimental/graph_converters/batch_normalization_folding.py: reshape_bn_parameters, BatchNormalizationFoldingOppositeModifierInner._compute_folded_parameters"]}
{"id": "C111", "title": "Names in a recorded network are unique", "statement": "While a proto network is recorded, all functions get pairwise different names and all variables are stored under pairwise different names, so no variable or function replaces another.", "quantifier": "all sequences of recorded functions and of user-chosen and generated names", "why_tests_cant": "Collisions need a particular interplay of user names, repeated names and numbers; tests record a few default-named layers.", "anchors": ["python/src/nnabla/core/graph_def.py: _get_unique_name, ProtoFunction.__init__, ProtoFunction._proto_call"]}
{"id": "C112", "title": "A loaded network is traversed once per function, producers first", "statement": "For every acyclic network file, loading succeeds, the traversal (execute_on_proto, forward_sequence) terminates, calls its callback exactly once for every function, and always after the producers of all its inputs; with stop flags set, exactly the functions downstream of a stopped variable are left out.", "quantifier": "all acyclic networks of any size, in any order in the file, and all sets of stop flags", "why_tests_cant": "The stack algorithm revisits functions; its termination and order depend on every graph shape.", "anchors": ["python/src/nnabla/core/graph_def.py: ProtoNetwork.from_proto, ProtoNetwork.execute_on_proto, ProtoNetwork.forward_sequence"]}
{"id": "C113", "title": "Calling a loaded network computes what the file says", "statement": "Calling a loaded acyclic network gives every variable the value determined by the functions of the file and the values of inputs and parameters; the order in which the file lists functions and variables is irrelevant.", "quantifier": "all acyclic networks, all functions, all input and parameter values, all listing orders", "why_tests_cant": "A wrong order only shows for particular graphs.", "anchors": ["python/src/nnabla/core/graph_def.py: ProtoNetwork.__call__, ProtoFunction.graph_call"]}
{"id": "C114", "title": "Loading and exporting a network are inverse", "statement": "Exporting a loaded network reproduces the functions with their inputs and outputs and the variables with their types; loading the export gives a network with the same ports; the network inputs (outputs) are exactly the variables which are read but not written (written but not read).", "quantifier": "all well-formed networks", "why_tests_cant": "It is a statement about every structure.", "anchors": ["python/src/nnabla/core/graph_def.py: ProtoNetwork.from_proto, ProtoNetwork.as_proto"]}
{"id": "C115", "title": "Removing identity functions does not change a network", "statement": "Removing an identity function succeeds, leaves a consistently wired network whose inputs and outputs all exist, and changes no value.", "quantifier": "all networks and all identity functions in them", "why_tests_cant": "The rewriting has many cases (network input or output, parameter, several readers).", "anchors": ["python/src/nnabla/core/graph_optimizer.py: remove_function, IdentityRemover"]}
{"id": "C116", "title": "Renaming variables keeps the network", "statement": "Renaming variables (executor outputs) renames them everywhere: the network stays consistent and computes the same values under the new names.", "quantifier": "all networks and renamings to unused names", "why_tests_cant": "Depends on where the variable is used.", "anchors": ["python/src/nnabla/core/graph_optimizer.py: rename_variable"]}
{"id": "C117", "title": "Saved networks can be used with another batch size", "statement": "Exporting with variable batch size frees exactly the batch dimension of variables and shape arguments; the loaded network called with batch size b has batch size b, on every call; exporting again changes nothing.", "quantifier": "all networks, batch sizes and sequences of calls and exports", "why_tests_cant": "Tests call a network once with one batch size.", "anchors": ["python/src/nnabla/core/variable_batch_size.py: variable_batch_size", "python/src/nnabla/core/graph_def.py: ProtoNetwork.__call__, ProtoFunction.graph_call"]}
{"id": "C118", "title": "Graph scopes are lexical", "statement": "Functions are recorded in the graph of the innermost enclosing `with graph()` block, and in the surrounding graph before, between and after blocks, however blocks are nested and however they are left.", "quantifier": "all programs of nested blocks, recordings and exceptions", "why_tests_cant": "Programs nest arbitrarily.", "anchors": ["python/src/nnabla/core/graph_def.py: graph"]}
{"id": "C119", "title": "cumsum is the prefix sum in every mode and its gradient the transposed sum", "statement": "cumsum(x, axis, exclusive, reverse) gives along the axis, at every position i, the sum of the elements up to i (exclusive: before i; reverse: from i on; both: after i), for any shape and positive or negative axis; an axis out of range is refused; backward is the vector-Jacobian product, added to the old gradient when accumulating; nothing outside the arrays is written.", "quantifier": "all shapes, axes, contents, output gradients, four mode combinations, accumulate or not", "why_tests_cant": "unbounded shapes and values; gradient is a statement about derivatives", "anchors": ["src/nbla/function/generic/cumsum.cpp: CumSum::setup_impl, forward_impl, backward_impl"]}
{"id": "C12", "title": "Memory cache is transparent", "statement": "Wrapping a data source in DataSourceWithMemoryCache: for every batch size, sample p of epoch e of the wrapping iterator is element order_e[p] of the wrapped dataset, order_e being a permutation (identity when shuffle=False), so caching never duplicates or loses samples, also for batches crossing epoch ends; when the data does not fit in memory every read is passed through. (Also shown: with shuffle=True the first two epochs use the same order.)", "quantifier": "every dataset size, batch size, permutation stream, number of epochs, wrapped source", "why_tests_cant": "unbounded histories and all permutations", "anchors": ["python/src/nnabla/utils/data_source.py: DataSourceWithMemoryCache"]}
{"id": "C120", "title": "cumprod's linear-time gradient is exact for every pattern of zeros", "statement": "cumprod(x, axis, exclusive, reverse) gives the product over the same positions as cumsum; its O(N) backward, which divides by elements before the first zero of a slice and uses a masked product at the first zero, equals the true vector-Jacobian product for every x, with any number of zeros anywhere, in all four modes, added to the old gradient when accumulating.", "quantifier": "all shapes, axes, contents including zeros, output gradients, modes", "why_tests_cant": "zero patterns are exponentially many; gradient tests by finite differences sample a few", "anchors": ["src/nbla/function/generic/cumprod.cpp: CumProd::setup_impl, forward_impl, backward_impl"]}
{"id": "C121", "title": "bool_gather, bool_scatter and bool_fill select, put back and fill by mask", "statement": "bool_gather(x, mask) returns the rows of x whose mask is one, in memory order, with shape (nnz, D_1..D_M); bool_scatter puts rows back, other positions are zero or keep the third input; gather after scatter is the identity, scatter after gather keeps the selected positions; bool_fill replaces the positions selected by the (broadcast) mask; gradients are the transposes, also when accumulating; any mask including the empty selection works.", "quantifier": "all shapes, masks, contents, gradients", "why_tests_cant": "all masks; the empty mask and several trailing dimensions are not tested", "anchors": ["src/nbla/function/generic/bool_gather.cpp", "src/nbla/function/generic/bool_scatter.cpp", "src/nbla/function/generic/bool_fill.cpp", "include/nbla/function/utils/bool_indexing.hpp: kernel_bool_gather, kernel_bool_scatter"]}
{"id": "C122", "title": "nonzero lists every non-zero element once, in memory order", "statement": "nonzero(x) has shape (ndim, number of non-zero elements); its columns are exactly the multi-indices of the non-zero elements of x in memory order; nothing else is written.", "quantifier": "every shape and content of x", "why_tests_cant": "The claim is about the position of every element for every sparsity pattern of every shape; tests compare a few random arrays with numpy.", "anchors": ["src/nbla/function/generic/nonzero.cpp:NonZero::non_zero"]}
{"id": "C123", "title": "unique: distinct rows, first occurrence, inverse and counts", "statement": "unique(x) returns the distinct elements (flatten) or slices along axis, in increasing order (sorted=True) or in order of first occurrence; indices are first occurrences, inverse indices reconstruct x, counts are the multiplicities.", "quantifier": "every shape including empty ones, axis, content, flag", "why_tests_cant": "The relation between y, indices, inverse and counts must hold for every pattern of equal elements; tests check a few random arrays. Empty arrays are not tested.", "anchors": ["src/nbla/function/generic/unique.cpp:Unique::unique", "src/nbla/function/generic/unique.cpp:create_outputs", "src/nbla/function/generic/unique.cpp:unique_preprocess"]}
{"id": "C124", "title": "nms_detection2d suppresses lower-scored overlapping boxes", "statement": "nms_detection2d copies box coordinates, thresholds the scores and, for each pair of boxes with overlap ratio (IoU) greater than nms, suppresses the one with the lower score; remaining boxes do not overlap; a box is only suppressed because of an overlapping box with at least its score. The result does not depend on the schedule of the parallel loops. IoU is symmetric and lies in [0, 1].", "quantifier": "every number of batches, boxes, classes, every content, threshold, thread schedule and every order the sort gives to equal scores", "why_tests_cant": "There is no test of this function's properties over all box configurations; suppression chains and ties need every configuration, and race freedom every schedule.", "anchors": ["src/nbla/function/generic/nms_detection2d.cpp:NmsDetection2d::forward_impl", "src/nbla/function/generic/nms_detection2d.cpp:forward_impl_per_class", "src/nbla/function/generic/nms_detection2d.cpp:calculate_iou"]}
{"id": "C125", "title": "confusion_matrix counts (label, first maximal class) pairs", "statement": "confusion_matrix(x, t, axis) returns the matrix whose entry (a, b) is the number of samples with label a whose first largest score is class b; entries sum to the number of samples; labels that are not classes are refused.", "quantifier": "every shape, axis, scores and labels", "why_tests_cant": "The counts must be right for every shape, tie and label; tests use random valid labels only.", "anchors": ["src/nbla/function/generic/confusion_matrix.cpp:ConfusionMatrix::forward_impl", "src/nbla/function/generic/confusion_matrix.cpp:ConfusionMatrix::setup_impl"]}
{"id": "C126", "title": "Reference counts and clearing in auto-forward mode", "statement": "In every history of creating, viewing, narrowing, re-linking, reshaping and destroying storage objects, Variable.get_number_of_references equals the number of Python Variable objects whose data lives in the same memory; an operation clears memory only when it destroys a Python Variable in auto-forward mode and no other Python object still gives access to that memory, and then (not persistent, produced by a function, not needed by backward, no narrowed relatives) it does clear it.", "quantifier": "all finite histories of operations on NdArray, Variable, CgVariable and Python Variable objects, all sharing patterns", "why_tests_cant": "the counters are kept in four linked kinds of objects and updated by differences at every re-link and destructor; one missed update in any history gives a use after clear or a leak", "anchors": ["src/nbla/synced_array.cpp: update_python_user_reference_counts", "src/nbla/nd_array.cpp: BaseNdArray", "src/nbla/variable.cpp: BaseVariable", "src/nbla/computation_graph/variable.cpp: BaseCgVariable, clear_during_auto_forward", "python/src/nnabla/_variable.pyx: set_var, __dealloc__, get_number_of_references"]}
{"id": "C127", "title": "Shapes and storage stay consistent", "statement": "In every history the number of elements of an NdArray equals the size of its array; NdArray.reshape to the same number of elements keeps the array, to another number is refused without force or on a narrowed NdArray with nothing changed, and with force gives it a fresh unshared array and leaves all others alone; NdArray.view shares the array; Variable.shape equals data.shape and grad.shape.", "quantifier": "all histories of operations, all shapes", "why_tests_cant": "sharing of NdArrays between Variables and exceptions half way through a reshape depend on the history", "anchors": ["src/nbla/nd_array.cpp: NdArray::reshape, view, narrow, set_array", "src/nbla/variable.cpp: Variable::reshape, view, set_data, set_grad"]}
{"id": "C128", "title": "Global and per-call hooks", "statement": "After any history of set_*_hook and unset_*_hook calls the callbacks in force are called in the order of registration, each key at most once, directly before (pre) and directly after (post) each function of forward and backward and each parameter processed by a solver method; an exception cuts the sequence at the point where it is raised.", "quantifier": "all histories of registrations, all graphs, all sets of raising hooks and functions, all parameter lists", "why_tests_cant": "depends on the history of registrations and on where exceptions occur", "anchors": ["src/nbla/global_function_callback.cpp", "src/nbla/global_solver_callback.cpp", "src/nbla/computation_graph/variable.cpp: ForwardCallback, BackwardCallback", "src/nbla/solver.cpp: ScopedCallback, update"]}
{"id": "C129", "title": "Cached constant arrays", "statement": "NNabla::ones(size) returns an array of at least size ones and NNabla::zeros(size) one of at least size zeros, per thread, and the memory stays valid until the same thread asks for a larger one.", "quantifier": "all interleaved histories of requests of all threads and sizes", "why_tests_cant": "the result depends on the earlier requests of the thread", "anchors": ["src/nbla/singleton_manager.cpp: NNabla::ones, NNabla::zeros"]}
{"id": "C13", "title": "A sliced iterator only returns samples of its slice", "statement": "DataIterator.slice(slice_start=s, slice_end=e) over any data iterator returns, at its position p in its epoch g, sample s+p of the order of epoch g, common to all slices, however several sliced iterators interleave. (Proved over SimpleDataSource while no slice is more than 14 epochs ahead of another. Refuted beyond that lag, and over an on-memory DataSourceWithMemoryCache with s>0: the cache is filled from position s but indexed from 0.)", "quantifier": "every number of slices, every interleaving of their reads, resets and reorderings", "why_tests_cant": "all interleavings, unbounded histories", "anchors": ["python/src/nnabla/utils/data_source.py: SlicedDataSource", "python/src/nnabla/utils/data_source_implements.py: SimpleDataSource"]}
{"id": "C130", "title": "RandomShift moves each sample by a shift within the limits and sends gradients back along the same moves", "statement": "F.random_shift draws for each sample and listed axis a shift within [-limit, limit], every value being possible and each draw being used once; each output element is the input element found by moving back by the shifts of its sample, the border mode (nearest, reflect, constant) deciding what is read outside; no access leaves the arrays; backward adds each output gradient to the element it was copied from.", "quantifier": "all shapes, limits, border modes, generators, drawn shifts, inputs, gradients, old gradient contents", "why_tests_cant": "tests sample a few seeds and shapes; the claim ranges over every drawn shift and every border situation", "anchors": ["src/nbla/function/generic/random_shift.cpp: prepare_addr_table, shift_recursive, shift_backward_recursive, random_shift, backward_impl"]}
{"id": "C131", "title": "RandomCrop and RandomFlip: windows stay inside, only listed axes flip, gradients follow the draw", "statement": "F.random_crop accepts a crop shape exactly when it fits, draws only windows inside of the input (every one possible), copies the window of each sample and returns gradients to it. F.random_flip reverses only listed axes, one fresh bit per sample and axis, and backward is the transpose of forward.", "quantifier": "all shapes, crop shapes, axes, base axes, generators, drawn positions and flips, gradients", "why_tests_cant": "the random draw selects among exponentially many access patterns; only some are seen in tests", "anchors": ["src/nbla/function/generic/random_crop.cpp: setup_impl, slice_forward_recursive, slice_backward_recursive, random_crop", "src/nbla/function/generic/random_flip.cpp: flip_recursive, random_flip, backward_impl"]}
{"id": "C132", "title": "Every sample of a batch gets its own random pattern", "statement": "In random_shift, random_crop and random_flip the dimensions before base_axis index samples, and different samples are augmented with different, independently drawn patterns.", "quantifier": "all batch shapes, base axes and draws", "why_tests_cant": "a shared pattern between two particular samples is invisible unless exactly those samples are compared over many draws", "anchors": ["src/nbla/function/generic/random_flip.cpp: flip_recursive (flip_index)", "src/nbla/function/generic/random_shift.cpp: shift_recursive (shift_index)", "src/nbla/function/generic/random_crop.cpp: slice_forward_recursive (slice_index)"]}
{"id": "C133", "title": "RandomChoice picks with the right probabilities, distinct values without replacement, and always ends", "statement": "F.random_choice with replacement picks index i exactly when the uniform number falls in an interval whose length is the weight of i; without replacement it picks the requested number of different indices of positive weight and the rejection loop ends whatever is drawn; gradients go to the chosen elements.", "quantifier": "all weights, sizes, numbers of draws and random sequences", "why_tests_cant": "termination of a rejection loop and distinctness must hold for every random sequence", "anchors": ["src/nbla/function/generic/random_choice.cpp: random_choice, backward_impl"]}
{"id": "C134", "title": "Recomputation replays the random numbers of the forward pass; seeds isolate a function", "statement": "Over any history of setups, forwards, recomputations and other users of the global generator, recomputing a random function gives exactly the output of its latest forward and consumes no random numbers, or raises if no forward prepared it; a function with its own seed gives outputs that depend on the seed and its inputs only.", "quantifier": "all histories of calls, kernels, generator states and foreign uses of the generator", "why_tests_cant": "it is a statement about every interleaving of calls sharing one generator", "anchors": ["src/nbla/function.cpp: setup_recompute, recompute", "src/nbla/function/generic/dropout.cpp: setup_impl, forward_impl, recompute_impl", "src/nbla/random_manager.cpp", "src/nbla/computation_graph/variable.cpp: ForwardCallback::operator()"]}
{"id": "C135", "title": "Dropout: scaled or zero outputs, and gradients through the elements kept", "statement": "Each output of F.dropout is zero or the input divided by 1-p, decided by its own draw; in any history of calls, backward passes gradients exactly through the elements kept by the latest forward or recompute.", "quantifier": "all sizes, p, masks, inputs, histories of forward/recompute/backward calls", "why_tests_cant": "the mask is hidden state shared between calls; histories are unbounded", "anchors": ["src/nbla/function/generic/dropout.cpp: dropout, backward_impl, clear_buffer"]}
{"id": "C136", "title": "RandomErase erases exactly the drawn rectangles and stops gradients there", "statement": "F.random_erase leaves pixels outside all rectangles of their sample (and channel unless shared) unchanged, replaces the others by values of the replacement distribution, and with ste_fine_grained passes gradients exactly through the unchanged pixels; a rectangle drawn as h x w covers h x w pixels.", "quantifier": "all image shapes, numbers of rectangles, overlaps, sharing modes, draws and gradients", "why_tests_cant": "overlaps and border positions are drawn at random", "anchors": ["src/nbla/function/generic/random_erase.cpp: generate_random_coords, erase_2d, random_erase, backward_impl"]}
{"id": "C137", "title": "A solver moves a parameter by the documented function of the whole gradient history", "statement": "Starting from a fresh state, after any list of gradients the next update of each element solver moves the parameter by the formula of its paper written with the discounted sums, moving averages or running maxima over the complete list: Sgd, Momentum, SgdW, Nesterov, Adagrad, RMSprop, Adadelta, RMSpropGraves, Adam, AdamW, AdaBound, AMSGRAD, AMSBound, Adamax, Lion.", "quantifier": "every list of gradients, initial value and hyper-parameters, over the reals", "why_tests_cant": "unbounded histories over a continuous domain", "anchors": ["src/nbla/solver/generic/sgd.cpp", "src/nbla/solver/generic/momentum.cpp", "src/nbla/solver/generic/nesterov.cpp", "src/nbla/solver/generic/adagrad.cpp", "src/nbla/solver/generic/rmsprop.cpp", "src/nbla/solver/generic/adadelta.cpp", "src/nbla/solver/generic/rmsprop_graves.cpp", "src/nbla/solver/generic/adam.cpp", "src/nbla/solver/generic/adamw.cpp", "src/nbla/solver/generic/adabound.cpp", "src/nbla/solver/generic/amsgrad.cpp", "src/nbla/solver/generic/amsbound.cpp", "src/nbla/solver/generic/adamax.cpp", "src/nbla/solver/generic/lion.cpp"]}
{"id": "C138", "title": "matrix_diag and matrix_diag_part", "statement": "F.matrix_diag puts the last axis of x on the diagonals of square matrices with zeros elsewhere, F.matrix_diag_part returns the diagonals of square matrices (non-square ones raise), and the gradients are each other's maps, accumulated when asked. (Refuted: matrix_diag_part accepts matrices that are not square, reading outside x or from the wrong matrix, and rejects empty ones.)", "quantifier": "every batch shape, size, contents and accumulation flag", "why_tests_cant": "all shapes of any rank", "anchors": ["src/nbla/function/generic/matrix_diag.cpp", "src/nbla/function/generic/matrix_diag_part.cpp"]}
{"id": "C139", "title": "trilu keeps exactly the triangle", "statement": "F.trilu(x, k, upper) keeps the elements with column - row >= k (upper) or <= k (lower), sets the others to zero whatever they are, and passes gradients through the kept elements only. (Refuted: empty matrices divide by zero; NaN and infinity in the removed triangle stay visible.)", "quantifier": "every batch shape, k of any sign, contents and accumulation flag", "why_tests_cant": "all shapes, offsets and contents", "anchors": ["src/nbla/function/generic/trilu.cpp"]}
{"id": "C14", "title": "File cache returns every sample exactly once per epoch", "statement": "DataSourceWithFileCache returns, in each epoch, every sample of the wrapped source exactly once, in order when shuffle=False, and position p returns the data of source index order[p].", "quantifier": "every size, cache file size, permutation stream, number of epochs", "why_tests_cant": "unbounded sizes and histories", "anchors": ["python/src/nnabla/utils/data_source.py: DataSourceWithFileCache"]}
{"id": "C140", "title": "meshgrid", "statement": "F.meshgrid of n vectors returns n arrays with one axis per input, output i equal to x_i broadcast along its axis (the first two exchanged with xy indexing); the gradient of every input that wants one is the sum of the output gradients over the other axes. (Refuted: nothing is propagated when neither of the first two inputs wants a gradient.)", "quantifier": "every number and lengths of inputs, both indexings, every set of inputs wanting gradients", "why_tests_cant": "all numbers of inputs and lengths", "anchors": ["src/nbla/function/generic/meshgrid.cpp", "src/nbla/function/generic/broadcast.cpp"]}
{"id": "C141", "title": "Tensor normalization normalises exactly the elements that agree on the kept axes", "statement": "For distinct valid axes of a non-empty array, tensor_normalization (the function behind layer, instance and group normalization and weight standardization) sets up without error for any number and order of axes, with parameter shape 1 off the axes; every output element is (x - mean)/sqrt(var + eps), scaled and shifted by gamma and beta at its coordinates on the axes, where mean and var are those of exactly the elements having the same coordinates on the axes; the statistics outputs hold that mean and variance at that coordinate; backward computes the exact gradient of any loss of the outputs (statistics outputs included) with respect to x, gamma and beta, also without scale or bias, and accumulates iff accum.", "quantifier": "every shape, axes list, eps > 0, input, parameters, upstream gradients, accum flags, previous contents of buffers", "why_tests_cant": "Quantifies over every shape and set of axes (the code transposes, merges axes and calls batch normalization through two different paths) and over all real inputs; gradient identity is a derivative for all points.", "anchors": ["src/nbla/function/generic/tensor_normalization.cpp:setup_impl,forward_impl,backward_impl", "include/nbla/function/tensor_normalization.hpp:BatchNormalizationInOutAdapter"]}
{"id": "C142", "title": "Layer normalization normalises every sample and has exact gradients", "statement": "layer_normalization accepts beta and gamma exactly when they have x's shape with 1 on the batch axes; its output at an element is gamma*(x-mean)/sqrt(var+eps)+beta, with mean and variance over all elements having the same batch coordinates; the optional second and third outputs are those statistics; backward gives the exact gradients of any loss on all outputs with respect to x, gamma and beta, and adds to or overwrites each gradient according to its own accumulate flag.", "quantifier": "all shapes and ranks, all sets of batch axes (also negative), all values, eps > 0, gamma/beta present or not, statistics output or not", "why_tests_cant": "The gradient passes through two-way broadcasting, recomputation of the normalised values and a transposing batch-normalization adapter; tests compare finite differences for a few shapes.", "anchors": ["src/nbla/function/generic/layer_normalization.cpp: setup_impl, forward_impl, backward_impl"]}
{"id": "C143", "title": "Instance normalization normalises every channel of every sample and has exact gradients", "statement": "instance_normalization computes gamma*(x-mean)/sqrt(var+eps)+beta with mean and variance over all elements with the same batch coordinates and channel, where beta and gamma may have the extent 1 on the batch axes; the statistics outputs hold the mean and the variance; backward gives the exact gradients with respect to x, gamma and beta and follows each accumulate flag; parameters with a wrong channel extent are rejected.", "quantifier": "all shapes and ranks, all channel axes and sets of batch axes (also negative), all values, eps > 0, parameters present or not, full or broadcast", "why_tests_cant": "Whether the parameters need broadcasting, and the accumulation through the intermediate broadcast gradient, depends on every combination of shapes and flags.", "anchors": ["src/nbla/function/generic/instance_normalization.cpp: setup_impl, forward_impl, backward_impl"]}
{"id": "C144", "title": "Group normalization normalises every channel group of every sample and has exact gradients", "statement": "group_normalization splits the channels in the given number of consecutive groups and computes gamma*(x-mean)/sqrt(var+eps)+beta with mean and variance over all elements with the same batch coordinates and channel group; beta and gamma must have the channel extent on the channel axis and 1 elsewhere; backward gives the exact gradients of x, gamma and beta and follows each accumulate flag.", "quantifier": "all shapes and ranks, all channel axes, group counts dividing the channels and sets of batch axes (also negative), all values, eps > 0", "why_tests_cant": "The result depends on the position of the channel axis relative to every batch axis after the split; tests use the usual layouts only.", "anchors": ["src/nbla/function/generic/group_normalization.cpp: setup_impl, forward_impl, backward_impl"]}
{"id": "C145", "title": "Weight standardization standardises every output map and has an exact gradient", "statement": "weight_standardization sets each weight to (w-mean)/sqrt(var+eps), mean and variance over all weights with the same channel coordinate; its backward is the exact gradient and is added to the present gradient when accumulation is requested.", "quantifier": "all shapes, channel axes (also negative), values, eps > 0", "why_tests_cant": "Finite differences on a few shapes do not establish the derivative for all.", "anchors": ["src/nbla/function/generic/weight_standardization.cpp: setup_impl, forward_impl, backward_impl"]}
{"id": "C146", "title": "The C++ parameter directory is a map shared by all its scopes", "statement": "ParameterDirectory::get_parameter_or_create returns the registered variable if the path exists with the same shape (throwing otherwise, without effect), else registers a new one and affects no other path; a registered parameter is never replaced or lost by later calls; nested scopes are joined paths; get_parameters of a scope lists exactly its parameters once each in order of registration; create_deep_copy gives the same paths with fresh, equal variables independent of the originals.", "quantifier": "all sequences of calls on any number of directories and scopes, all names, shapes and values", "why_tests_cant": "The claims range over all histories of registrations through scopes that share one dictionary, and over all names (for example scopes whose names are prefixes of each other).", "anchors": ["src/nbla/parametric_functions.cpp: ParameterDirectory::operator[], get_parameters, get_parameter, get_parameter_or_create, create_deep_copy", "include/nbla/parametric_functions.hpp: ParameterDirectory"]}
{"id": "C147", "title": "C++ parametric functions share and freeze parameters as asked", "statement": "A C++ parametric function (affine, convolution, deconvolution, batch_normalization) called again in the same scope with the same sizes uses the same variables and changes nothing; in an empty scope it registers parameters with the documented names, shapes and initial values, the running statistics without gradient; fix_parameters(true) excludes the parameters from training.", "quantifier": "all directories, scopes and histories of calls between the two, all sizes and options", "why_tests_cant": "It must hold after any history of registrations and writes between the calls.", "anchors": ["src/nbla/parametric_functions.cpp: affine, convolution, deconvolution, batch_normalization, make_parameter"]}
{"id": "C148", "title": "A context selects the implementation by its backend preference", "statement": "Creating a function under a context takes, of the backends listed in the context ('cpu' meaning 'cpu:float'), the earliest for which an implementation is registered, and of those the one registered first; it fails exactly when none of the backends has one; registering further implementations does not change a choice already determined by the first backend.", "quantifier": "all sequences of registrations by any number of extensions, all backend lists", "why_tests_cant": "The set of loaded extensions and the preference list are open; tests run with the CPU backend only.", "anchors": ["include/nbla/function_registry.hpp: FunctionDb::query, FunctionDb::add, FunctionRegistry::create", "src/nbla/context.cpp: Context::set_backend"]}
{"id": "C149", "title": "Mean subtraction subtracts the cumulative mean and differentiates through it", "statement": "After training forwards on any sequence of batches from a zero count, running_mean is the arithmetic mean of all batch means and the count the number of batches; a training forward subtracts the updated mean, evaluation and recomputation the stored one without changing it, and recomputation reproduces the forward output; backward is the gradient of the output (through the mean in training mode) and honours accumulation.", "quantifier": "all shapes and base axes, all sequences of batches of all sizes, all values", "why_tests_cant": "A statement about all histories of batches; the gradient through the mean for every batch size.", "anchors": ["src/nbla/function/generic/mean_subtraction.cpp: setup_impl, forward_impl_batch, forward_impl_global, recompute_impl, backward_impl_batch, backward_impl_global"]}
{"id": "C15", "title": "ConcatDataSource enumerates the concatenation", "statement": "ConcatDataSource([d0,..,dk]) of pairwise distinct sources has size sum(sizes) and without shuffle returns at position p the (p - sum of earlier sizes)-th sample of the source that contains it; no sample is skipped or repeated. (Refuted when the same source object is listed twice.)", "quantifier": "every list of sources and position", "why_tests_cant": "unbounded", "anchors": ["python/src/nnabla/utils/data_source_implements.py: ConcatDataSource"]}
{"id": "C150", "title": "Gradient graphs of elementwise functions: first and second derivative", "statement": "For every elementwise function of one input, the graph that nn.grad adds evaluates to the incoming gradient times the derivative (at kinks, a one-sided slope), and running backward through that graph gives the second derivative with respect to x and the first derivative with respect to the incoming gradient. (Refuted: mish raises NotImplementedError; differentiating sinc's graph at 0 does not give -1/3; elu(alpha != 1) at 0 and hard_sigmoid at +-2.5 take another side than Variable.backward.)", "quantifier": "every elementwise function, hyper-parameter, real input in its domain, incoming gradient", "why_tests_cant": "continuous domain; tests sample a few seeds", "anchors": ["python/src/nnabla/backward_function/*.py", "python/src/nnabla/_arithmetic_ops.pyx"]}
{"id": "C151", "title": "Gradient graphs of binary operations and losses under broadcasting", "statement": "The graph nn.grad adds for a binary operation or a loss of two inputs returns, for each input, an array of that input's shape holding the sum of the partial derivatives over the broadcast copies, the same values Variable.backward gives. (Refuted: pow2, maximum2, minimum2, atan2, squared_error, absolute_error, huber_loss and epsilon_insensitive_loss return the output's shape, so the gradient of a broadcast input has the wrong shape.)", "quantifier": "every operation, pair of broadcastable shapes, inputs at smooth points, incoming gradient", "why_tests_cant": "all shapes and values", "anchors": ["python/src/nnabla/backward_function/*.py", "python/src/nnabla/backward_function/utils.py: sum_for_arithmetics"]}
{"id": "C152", "title": "Lamb and Lars move an array by the documented function of the whole history", "statement": "After any list of gradient arrays, Lamb's next update moves every element by eta times the direction times clamp(norm of the parameter)/norm of the direction, the direction being Adam's bias corrected ratio over the element's complete history plus the decay; Lars never raises for a non-negative decay rate and subtracts the discounted sum over all updates of that update's trust-ratio learning rate times the decayed gradient.", "quantifier": "every array size, history, hyper-parameter, over the reals", "why_tests_cant": "unbounded histories over a continuous domain", "anchors": ["src/nbla/solver/generic/lamb.cpp", "src/nbla/solver/generic/lars.cpp"]}
{"id": "C153", "title": "Trainer and Updater: order of the calls and what training computes", "statement": "Trainer.train() makes exactly the documented calls in the documented order until one raises, and with workers whose other hooks leave parameters, gradients and training stream alone it applies the solver max_epoch*iter_per_epoch times, each time to the sum of the gradients of the next accum_grad batches at the current parameters, all-reduced iff there is a communicator and gradients to exchange.", "quantifier": "every worker (state, hooks, exceptions), callback lists, accum_grad, epochs, iterations, data stream, solver", "why_tests_cant": "unbounded numbers of epochs, callbacks and exception points", "anchors": ["python/src/nnabla/experimental/framework/trainer.py", "python/src/nnabla/experimental/framework/updater.py", "python/src/nnabla/experimental/framework/evaluator.py", "python/src/nnabla/experimental/framework/worker.py"]}
{"id": "C154", "title": "Crash and resume of Trainer", "statement": "With checkpoints of the whole training state, after any number of crashes at any call, running train() again ends in the state of an uninterrupted training: no update is lost or repeated, and the total number of epochs is max_epoch. (Refuted: each start runs max_epoch further epochs; and load_checkpoint is called before training_prepare, which creates a new solver and so discards a restored solver state.)", "quantifier": "every crash point, every number of crashes, every worker", "why_tests_cant": "crash points are unbounded", "anchors": ["python/src/nnabla/experimental/framework/trainer.py: train", "python/src/nnabla/experimental/framework/worker.py: training_prepare, load_checkpoint"]}
{"id": "C155", "title": "DLPack exchange: each tensor is deleted exactly once, after its last use", "statement": "In every history of importing tensors (from_dlpack), exporting arrays (to_dlpack), other frameworks taking and releasing them, dropping capsules, casting, clearing and destroying NdArrays: the deleter of a tensor is called at most once, never while a capsule, an NdArray or another framework is responsible for it, exactly one of them is responsible at a time, the memory of an exported array stays until the consumer's deleter call, and once everything is dropped every deleter has been called exactly once. No operation accesses memory through a null pointer, and to_dlpack(a, dtype) exports that dtype and size.", "quantifier": "all histories of operations by the user, other frameworks and the memory management, of any length and interleaving", "why_tests_cant": "double deletes, use after free and leaks depend on the order in which capsules, arrays and consumers die; tests exercise a few orders", "anchors": ["python/src/nnabla/utils/dlpack.pyx:from_dlpack", "python/src/nnabla/utils/dlpack.pyx:to_dlpack", "src/nbla/utils/dlpack_utils.cpp", "src/nbla/array/dlpack_array.cpp:DlpackArray", "src/nbla/synced_array.cpp:cast_sp"]}
{"id": "C156", "title": "DLPack exchange keeps element types and element positions", "statement": "A tensor that from_dlpack accepts becomes an NdArray of the same shape whose every element is the tensor's element at that index, with a dtype of the same kind and width; every compact row-major tensor (with or without strides) of a supported type is accepted; and what to_dlpack exports states the dtype of the array and is accepted by from_dlpack with the same shape, kind and width.", "quantifier": "all shapes, strides, type codes, bit widths, dtypes and platforms (sizes of the C types)", "why_tests_cant": "shapes and strides are unbounded and the sizes of types depend on the platform the tests run on", "anchors": ["src/nbla/utils/dlpack_utils.cpp:convert_dtype_to_dlpack_code", "src/nbla/utils/dlpack_utils.cpp:get_shape_with_contiguous_memory", "src/nbla/utils/dlpack_utils.cpp:convert_dlpack_type_to_dtype", "include/nbla/common.hpp:get_c_contiguous_strides"]}
{"id": "C157", "title": "Incremental network quantization keeps its promises over training histories", "statement": "After every forward of INQAffine/INQConvolution each fixed weight is 0 or a signed power of two from a codebook that fits num_bits, namely a value nearest to what it was; learnable weights are used as the solver left them; at each listed iteration except the last, 'largest_abs' fixes exactly half of the learnable weights (rounded down) and these are the largest ones; at the last one all are fixed; a fixed weight stays fixed and never changes again, whatever the solver does.", "quantifier": "all weights, indicators, num_bits >= 2, iteration lists, tie-breaking orders, and all histories of solver updates and forwards", "why_tests_cant": "the codebook moves with the largest weight, so the promise depends on the whole training history and on real-valued weights", "anchors": ["src/nbla/function/generic/inq_affine.cpp:forward_impl", "src/nbla/function/generic/inq_convolution.cpp:forward_impl"]}
{"id": "C158", "title": "Integer remainder and bit shift functions", "statement": "F.mod2 of integer arrays gives, element by element with broadcasting, the numpy.mod remainder (divisor's sign) or with fmod=True the numpy.fmod remainder (dividend's sign), for every pair of values of the type; F.bit_shift gives x*2^s modulo 2^bits (LEFT) or floor(x/2^s) (RIGHT) for every shift, including shifts by more bits than the type has, and rejects other directions.", "quantifier": "all integer types, values, shapes that broadcast, shift amounts", "why_tests_cant": "the value space has 2^128 pairs per type and the failures sit at its boundaries", "anchors": ["src/nbla/function/generic/mod2.cpp", "src/nbla/function/generic/bit_shift.cpp"]}
{"id": "C159", "title": "Virtual-memory caching allocator: what a client holds is its own", "statement": "Through any history of allocations (succeeding or failing), frees, device completions, cache drops and chunk size changes on any number of devices, no physical memory is held by two clients or by a client and the allocator's caches; a held memory lies on the device asked for, is at least as large as the request and is backed by that much physical memory; it is never unbound or reused while held; no step unbinds a memory the device still uses; an allocation or a failed allocation changes no other client's memory.", "quantifier": "all histories of operations, all devices, all request sizes, all answers of the device (physical allocation failing at any point, growing in place succeeding or not, completion at any time)", "why_tests_cant": "Sharing needs a particular order of splits, growths, failures and late device completions; tests without a GPU do not run this allocator at all.", "anchors": ["src/nbla/memory/virtual_caching_allocator.cpp", "src/nbla/memory/allocator.cpp:Allocator::alloc,Allocator::free", "include/nbla/memory/virtual_caching_allocator.hpp"]}
{"id": "C16", "title": "Learning-rate schedules have their documented closed form", "statement": "StepScheduler gives init_lr*gamma^(number of steps <= iter); ExponentialScheduler gives init_lr*gamma^floor(iter/interval) and is constant within an interval; PolynomialScheduler starts at init_lr, reaches 0 at max_iter, is antitone on [0,max_iter]; LinearWarmup equals the inner schedule from warmup_iter on, is at most it before, and is continuous at the boundary; all are nonnegative for nonnegative init_lr and gamma.", "quantifier": "every iteration number and all parameters (over exact reals)", "why_tests_cant": "all iterations and parameters", "anchors": ["python/src/nnabla/utils/learning_rate_scheduler.py"]}
{"id": "C160", "title": "Virtual-memory caching allocator: cached memory is reused", "statement": "After any history, a request that (rounded up to whole chunks) fits in the bytes cached for the device succeeds even if the device has no physical memory left, and creates no physical memory.", "quantifier": "all histories, request sizes and device answers", "why_tests_cant": "Depends on how the cached bytes are distributed over mapped memories and loose chunks, which any history can shape.", "anchors": ["src/nbla/memory/virtual_caching_allocator.cpp:alloc_impl"]}
{"id": "C161", "title": "Virtual-memory caching allocator: reported usage is the actual usage", "statement": "get_used_memory_counts, get_fragmentation_bytes and get_max_available_bytes report the number of memory objects of the device, the bytes allocated beyond what was requested, and the bytes that can be allocated from cache, after any history.", "quantifier": "all histories and devices", "why_tests_cant": "Counters drift only in particular sequences of reuse and failure.", "anchors": ["src/nbla/memory/virtual_caching_allocator.cpp:get_total_cache_bytes_impl,get_used_memory_counts,get_fragmentation_bytes"]}
{"id": "C162", "title": "stft computes the windowed discrete Fourier transform of every frame", "statement": "F.stft(x, window_size, stride, fft_size, window_type, center, pad_mode) of x with shape [B, L] returns two arrays of shape [B, fft_size//2+1, frames], frames being the number of positions, stride apart, at which fft_size samples fit in the signal (padded by fft_size//2 on both sides according to pad_mode when center); element (b, w, f) is the real / imaginary part of the DFT at bin w of frame f multiplied by the window (of length window_size, centred in fft_size samples).", "quantifier": "all signals, batch sizes, lengths, window types and sizes, strides, transform sizes, padding modes, with and without centring, whatever the internal buffers held", "why_tests_cant": "tests compare a handful of configurations with librosa-like references; the claim covers all sizes, strides and paddings", "anchors": ["src/nbla/function/generic/stft.cpp STFT::setup_impl, forward_impl, calculate_conv_weight", "include/nbla/function/utils/stft_istft.hpp create_window"]}
{"id": "C163", "title": "istft undoes stft", "statement": "Whenever istft accepts the outputs of stft with the same arguments (pad_mode constant for istft; non-zero overlap-add condition met), F.istft(*F.stft(x)) equals x element by element on all samples covered by whole strides, and has the length of x when the stride divides it; and istft can be called with its default arguments.", "quantifier": "all signals, batch sizes, lengths, windows, strides, transform sizes and stft padding modes", "why_tests_cant": "an exact algebraic identity over all signals and sizes; the tests use even transform sizes and pass pad_mode explicitly", "anchors": ["src/nbla/function/generic/istft.cpp ISTFT::setup_impl, forward_impl, calculate_conv_weight, calculate_inv_window, apply_inv_window_forward", "python/src/nnabla/functions.py istft"]}
{"id": "C164", "title": "gradient of stft, directly and through nn.grad", "statement": "Backward of stft is the transpose of stft (added to the old gradient when accumulating); nn.grad's rule, istft(gradients, as_stft_backward=True), returns an array of the shape of x equal to that gradient.", "quantifier": "all signals, output gradients, sizes, windows, padding modes, accumulation flags, and previous contents of the buffers", "why_tests_cant": "numerical gradient checks sample a few sizes; lengths that the stride does not divide are not among them", "anchors": ["src/nbla/function/generic/stft.cpp STFT::backward_impl", "src/nbla/function/generic/istft.cpp ISTFT::forward_impl (as_stft_backward_)", "python/src/nnabla/backward_function/stft.py stft_backward"]}
{"id": "C165", "title": "Unpooling repeats elements and its backward is the transpose", "statement": "F.unpooling(x, kernel) multiplies the trailing len(kernel) axes by the kernel sizes and element (a, i) of the result is element (a, i // kernel) of x; no access leaves the arrays; backward adds up, for each input element, the gradients of all its copies (the transpose of forward), on top of the old gradient when accumulating; more kernel sizes than axes and channel_last are rejected.", "quantifier": "all numbers of axes >= 1, shapes, kernel sizes, inputs, gradients, accumulation flags", "why_tests_cant": "The recursive counting loop with separate pointer strides must stay aligned for every shape and kernel of any dimension.", "anchors": ["src/nbla/function/generic/unpooling.cpp: setup_impl, unpooling_forward_recursive, unpooling_backward_recursive"]}
{"id": "C166", "title": "PReLU uses the slope of the right channel and its gradients are right", "statement": "F.prelu(x, w, base_axis): accepted exactly when the axis is in range (negative counts from the end) and w is a single element or a vector as long as that axis; result is x where x >= 0 and x times the slope of the element's channel elsewhere; backward computes the gradients of both x and w wherever no input is 0, adds them to the old ones when accumulating, and writes nowhere else.", "quantifier": "all shapes, axes, slope shapes, real inputs, slopes and gradients, accumulation flags", "why_tests_cant": "The channel is recovered from the flat index by division and remainder; the slope gradient is a scatter-add over all elements of all shapes.", "anchors": ["src/nbla/function/generic/prelu.cpp"]}
{"id": "C167", "title": "CReLU and CELU concatenate the two halves along the axis, with right gradients", "statement": "F.crelu and F.celu double the given axis: position j < d holds the activation of x, position d + j the activation of -x; backward computes the gradient wherever no input is 0 (for CELU everywhere if alpha = 1), added to the old one when accumulating; nothing outside of the arrays is written; an axis out of range is rejected.", "quantifier": "all shapes with elements from the axis on, axes, alpha, real inputs and gradients, accumulation flags", "why_tests_cant": "Index arithmetic over two halves for arbitrary shapes and real derivatives.", "anchors": ["src/nbla/function/generic/crelu.cpp", "src/nbla/function/generic/celu.cpp"]}
{"id": "C168", "title": "Gradient clipping functions clip exactly the gradient", "statement": "F.clip_grad_by_value and F.clip_grad_by_norm leave the values unchanged in forward; in backward the first clips each element of the gradient to [min, max] (arrays of the shape of x; other shapes are rejected), the second scales each group's gradient (elements differing only in the given axes) to the given norm. Both honour accumulation and write nothing else.", "quantifier": "all shapes, axes lists, bounds, gradients, accumulation and propagate flags, previous buffer contents", "why_tests_cant": "Out-of-bounds reads with mismatched shapes give plausible values; the norm identity holds for every gradient.", "anchors": ["src/nbla/function/generic/clip_grad_by_value.cpp", "src/nbla/function/generic/clip_grad_by_norm.cpp"]}
{"id": "C169", "title": "F.global_average_pooling averages each channel", "statement": "F.global_average_pooling of an array (N, C, ...) returns (N, C, 1, 1) with the average over all remaining axes of each channel; backward distributes the gradient evenly; inputs with fewer than two axes are rejected.", "quantifier": "all shapes with at least two axes, inputs, gradients, accumulation flags", "why_tests_cant": "The strides depend on the number of axes; only special numbers of axes are ever tested.", "anchors": ["src/nbla/function/generic/global_average_pooling.cpp"]}
{"id": "C17", "title": "MonitorSeries accounts for every value exactly once", "statement": "Every value added to a MonitorSeries is averaged into exactly one emitted line or is still buffered; lines are emitted at most once per interval and each line is the mean of the values added since the previous line.", "quantifier": "every sequence of add(index, value) and every interval", "why_tests_cant": "unbounded sequences", "anchors": ["python/src/nnabla/monitor.py: MonitorSeries.add"]}
{"id": "C170", "title": "F.norm computes the p-norm over the axes and its gradient", "statement": "F.norm(x, p, axes, keep_dims): p < 1 is rejected; each element of the result is the p-th root of the sum of |x|^p over the elements reduced into it; backward computes the gradient wherever every such group has a non-zero element (and, for p = 1, no element is zero), adds it to the old gradient when accumulating, whatever the uninitialised temporaries hold, and writes nowhere else.", "quantifier": "all p >= 1, shapes with elements, axes (all counted from the same end), inputs, gradients, accumulation flags, contents of uninitialised temporaries", "why_tests_cant": "The chain of four kernels with temporaries must compute the derivative for a continuum of inputs and all shapes.", "anchors": ["src/nbla/function/generic/norm.cpp", "src/nbla/imperative.cpp: execute, backward"]}
{"id": "C171", "title": "F.norm_normalization divides by the norm and its gradient is right", "statement": "F.norm_normalization(x, p, axes) divides each element by the p-norm of its group; backward computes the gradient wherever the norm is differentiable and non-zero, added to the old one when accumulating, and never depends on uninitialised memory.", "quantifier": "all p >= 1, shapes with elements, axes, inputs, gradients, accumulation flags, uninitialised memory contents", "why_tests_cant": "Reading beyond the one-element accum vector gives a bit that is nearly always 0 in tests.", "anchors": ["src/nbla/function/generic/norm_normalization.cpp: forward_impl, backward_impl"]}
{"id": "C172", "title": "F.weight_normalization rescales each slice and both gradients are right", "statement": "F.weight_normalization(w, g, dim, eps) returns g[i_dim] * w / sqrt(sum of squares of the slice + eps); setup accepts exactly valid dim, g of shape (w.shape[dim],) and eps > 0; backward computes the gradients of w and of g (the shared input w accumulates both paths), each only if asked for, added to the old one when accumulating.", "quantifier": "all shapes with elements, dim, eps, inputs, gradients, propagate and accumulation flags, uninitialised buffer contents", "why_tests_cant": "The gradient is assembled from seven chained kernels with temporary buffers and mixed accumulation flags.", "anchors": ["src/nbla/function/generic/weight_normalization.cpp"]}
{"id": "C173", "title": "Singletons: one living object per class, deleted exactly once", "statement": "SingletonManager::get returns the one living object of a class, creating it on demand; it stays the same until that class is erased (by class or by its ID) or everything is cleared; erase destroys exactly that object, clear destroys all; nothing is ever deleted twice, also when the memory allocator reuses addresses; IDs of living singletons are stable and distinct.", "quantifier": "all histories of get / get_id / erase / erase_by_id / clear on any classes, all addresses the allocator may return", "why_tests_cant": "Double deletes and ID confusions depend on the history and on address reuse.", "anchors": ["src/nbla/singleton_manager.cpp", "include/nbla/singleton_manager-internal.hpp"]}
{"id": "C174", "title": "Shared arrays of ones and zeros", "statement": "NNabla::ones(size) (zeros(size)) returns a living array of at least size elements all equal to one (zero), separate for each thread, that stays valid until the same thread asks for more elements.", "quantifier": "all histories of calls in all threads, all sizes", "why_tests_cant": "Depends on the history of calls of both functions in one thread.", "anchors": ["src/nbla/singleton_manager.cpp: NNabla::ones, NNabla::zeros"]}
{"id": "C175", "title": "F.dot agrees with numpy.dot", "statement": "F.dot(a, b) of Variables or NdArrays computes what numpy.dot computes on the contents at forward time: inner product of vectors, product with a scalar, otherwise the sum over the last axis of a and the second to last (or only) axis of b; mismatching extents are rejected.", "quantifier": "all shapes and contents, contents changed between graph construction and forward", "why_tests_cant": "The transposition and flattening for N-D x M-D arrays must be right for all shapes; capturing a value at construction is only visible with later changes.", "anchors": ["python/src/nnabla/numpy_compat_functions.py: dot"]}
{"id": "C176", "title": "add_n / mul_n compute exactly over the inputs in use, forward and backward", "statement": "add_n and mul_n accept exactly non-empty lists of inputs of one shape; after set_active_input_mask (accepted exactly when it has one entry per input) the output is the sum/product over exactly the inputs switched on, inputs switched off are neither read nor influence any gradient, and backward gives the gradient of that map for every input (0 for inputs switched off).", "quantifier": "all numbers of inputs, masks, sizes, real inputs, propagate_down and accum flags, old gradients", "why_tests_cant": "Masks, numbers of inputs, values (including zeros, where mul_n divides by the input) and flags range over unbounded sets.", "anchors": ["src/nbla/function/generic/add_n.cpp", "src/nbla/function/generic/mul_n.cpp", "src/nbla/function.cpp: set_active_input_mask, is_active_input, backward"]}
{"id": "C177", "title": "A mask set with set_active_input_mask stays in force", "statement": "After y.parent.set_active_input_mask(mask) every later forward and backward uses that mask until another mask is set.", "quantifier": "all masks and all sequences of later forward/backward calls with any input shapes", "why_tests_cant": "A history property: any later call, at any time, could reset the mask.", "anchors": ["src/nbla/function.cpp: setup, forward, backward, check_shapes", "src/nbla/function/generic/add_n.cpp: setup_impl"]}
{"id": "C178", "title": "arange terminates and lists exactly start + i*step before stop", "statement": "F.arange(start, stop, step) is rejected exactly for step 0, otherwise returns, and its elements are exactly the numbers start + i*step, i = 0,1,..., that lie before stop (below it for positive, above it for negative step).", "quantifier": "all start, stop, step", "why_tests_cant": "Termination and the element count must hold for every triple of numbers.", "anchors": ["src/nbla/function/generic/arange.cpp"]}
{"id": "C179", "title": "linspace and eye_like produce the documented arrays", "statement": "linspace(start, stop, num) is rejected exactly for negative num and has num equally spaced elements, the first being start and (for num > 1) the last stop; eye_like(x, k) is accepted exactly for matrices, writes only inside its output, and element (i,j) is 1 exactly when j = i + k, else 0, for any k.", "quantifier": "all real endpoints, all num, all matrix sizes (also empty) and all integers k", "why_tests_cant": "Offsets beyond the matrix and empty matrices are a boundary for every size.", "anchors": ["src/nbla/function/generic/linspace.cpp", "src/nbla/function/generic/eye_like.cpp"]}
{"id": "C18", "title": "Basic indexing has NumPy semantics", "statement": "x[key] for keys made of ints, slices, Ellipsis and None returns an array of the NumPy result shape whose elements are the NumPy-selected ones, and raises IndexError exactly for out-of-range ints, too many indices or two ellipses. (Refuted for slice bounds beyond the array on the side the code does not clamp, e.g. x[-10:3] on 5 elements.)", "quantifier": "every shape, every key, every slice start/stop/step", "why_tests_cant": "unbounded ranks and bounds", "anchors": ["python/src/nnabla/_indexing.pyx: basic_getsetitem_prepare, basic_getsetitem_result_shape", "src/nbla/function/generic/slice.cpp: setup_impl, slice_forward_recursive"]}
{"id": "C180", "title": "batch_inv returns inverses and the exact gradient", "statement": "batch_inv accepts exactly inputs of shape (B,d,d); for invertible matrices each output matrix times the input matrix is the identity, and backward writes, or adds to the old gradient, the gradient of that map (-inv^T gy inv^T).", "quantifier": "all batch sizes and dimensions > 0, all batches of invertible real matrices, all output gradients, accum flags, contents of temporaries", "why_tests_cant": "A gradient identity over all invertible matrices; tests compare a few matrices numerically.", "anchors": ["src/nbla/function/generic/batch_inv.cpp"]}
{"id": "C181", "title": "batch_det returns determinants and their gradient", "statement": "batch_det returns the determinant of every matrix, and backward writes, or adds to the old gradient, the gradient of the determinant (gy times the transposed adjugate) for every input.", "quantifier": "all batch sizes and dimensions > 0, all real matrices, output gradients, accum flags, contents of temporaries", "why_tests_cant": "Includes singular matrices, a set of measure zero that random tests never hit.", "anchors": ["src/nbla/function/generic/batch_det.cpp"]}
{"id": "C182", "title": "batch_logdet is log|det| with its gradient", "statement": "For invertible matrices batch_logdet returns log|det| of each, and backward, which recomputes the intermediate results, writes or adds the gradient of that map.", "quantifier": "all batch sizes and dimensions > 0, all invertible real matrices, output gradients, accum flags, contents of temporaries", "why_tests_cant": "A gradient identity over all invertible matrices with both signs of the determinant.", "anchors": ["src/nbla/function/generic/batch_logdet.cpp"]}
{"id": "C183", "title": "F.interpolate accepts exactly the supported arguments and only changes the spatial dimensions", "statement": "With 1 to 3 output sizes, mode linear or nearest and not both align_corners and half_pixel, the output shape is the input shape with the last len(output_size) dimensions (before the channel dimension when channel_last) replaced by output_size; every other combination of arguments, and an input with fewer dimensions than output_size, raises an error.", "quantifier": "all argument combinations, all input shapes", "why_tests_cant": "Tests try a few shapes; the rule is about all ranks and argument combinations, including ranks smaller than output_size.", "anchors": ["src/nbla/function/generic/interpolate.cpp: setup_impl", "src/nbla/function/generic/interpolate.cpp: forward_impl"]}
{"id": "C184", "title": "F.interpolate linear is multilinear interpolation at the documented coordinate", "statement": "In mode linear (1-D, 2-D, 3-D) each output is the sum of the samples of its plane weighted by the product over the axes of max(0, 1-|p-j|), p being the input coordinate of the documentation's table for align_corners/half_pixel, moved to the border when outside.", "quantifier": "all outer shapes, input and output sizes, option combinations, inputs and output positions", "why_tests_cant": "The reference test recomputes the same formula on a few sizes; corner cases (size 1, border) are only met by particular size combinations.", "anchors": ["src/nbla/function/generic/interpolate.cpp: linear_interpolate_1d/2d/3d, compute_scale, get_src_index", "python/src/nnabla/functions.py: interpolate"]}
{"id": "C185", "title": "Linear interpolation does not overshoot, keeps aligned corners and is the identity at equal size", "statement": "In mode linear every output lies between the smallest and the largest sample of its plane; with align_corners each corner of the output equals the corner of the input; resizing to the input's own size returns the input.", "quantifier": "all shapes, all inputs, all option combinations", "why_tests_cant": "Inequalities and identities over all real inputs and sizes.", "anchors": ["src/nbla/function/generic/interpolate.cpp: linear_interpolate_1d/2d/3d", "build-tools/code_generator/functions.yaml: Interpolate align_corners"]}
{"id": "C186", "title": "F.interpolate nearest copies the sample at the documented coordinate", "statement": "In mode nearest each output is a copy of the input sample nearest to the documented input coordinate on every axis (with half_pixel_for_nn: coordinate (o+0.5)*in/out).", "quantifier": "all shapes, option combinations, inputs and output positions", "why_tests_cant": "The sample chosen depends on every size combination; the test recomputes the code's own formula.", "anchors": ["src/nbla/function/generic/interpolate.cpp: nearest_interpolate_1d/2d/3d, compute_scale_for_nn, get_src_index_for_nn"]}
{"id": "C187", "title": "The gradient of F.interpolate is the transpose of its forward pass", "statement": "In both modes and for all options the backward pass computes the transpose of the (linear) forward pass, adds it to the gradient when accumulating, and writes nowhere outside of the input gradient.", "quantifier": "all shapes, option combinations, output gradients, gradient buffer contents", "why_tests_cant": "Numerical gradient checks sample a few points of a few shapes.", "anchors": ["src/nbla/function/generic/interpolate.cpp: *_backward, backward_impl"]}
{"id": "C188", "title": "F.interpolate computes the output size from scale", "statement": "With output_size that size is used; with scale (one factor per spatial dimension) each spatial dimension d becomes floor(factor*d); with neither, or with more factors than dimensions, the call raises an error.", "quantifier": "all shapes, scales, with and without channel_last", "why_tests_cant": "Tests use matching ranks and a few factors.", "anchors": ["python/src/nnabla/functions.py: interpolate"]}
{"id": "C189", "title": "CreateCache writes every csv row exactly once, in order, in files that agree with the index", "statement": "CreateCache.create(dir, ...) cuts the (possibly shuffled) rows into files of cache_size examples. The names in cache_index.csv are distinct, each named file holds the number of examples the index says, the files put together in index order are the processed rows in the requested order (every csv row once), only the last file may be shorter, and order.csv maps position p to the csv row it came from, whatever the schedule of the writer threads.", "quantifier": "every csv file, order, cache size, row processing and schedule of the writer pool", "why_tests_cant": "ranges over all sizes and all interleavings of the pool", "anchors": ["python/src/nnabla/utils/create_cache.py: CreateCache.create, CreateCache._save_cache"]}
{"id": "C19", "title": "Setting up a graph again does not change its meaning", "statement": "Re-running setup of a Slice function on the same input shape keeps its output shape and selected elements. (Refuted for negative step with stop=None.)", "quantifier": "every start/stop/step and shape, every number of setups", "why_tests_cant": "re-setup histories", "anchors": ["src/nbla/function/generic/slice.cpp: Slice::setup_impl"]}
{"id": "C190", "title": "The prefetching cache reader returns the contents of the file asked for and never deadlocks", "statement": "Every CacheReaderWithPrefetch.open_and_prefetch_cache(f, prefetch_list) returns the contents of f, in the order of the calls, whatever was prefetched before and however the prefetch threads are scheduled; and every call returns if steps keep being taken.", "quantifier": "every number of threads, sequence of calls with their prefetch lists, and schedule of caller and threads", "why_tests_cant": "races: the property is about all interleavings", "anchors": ["python/src/nnabla/utils/data_source_implements.py: CachePrefetcher, CacheReaderWithPrefetch"]}
{"id": "C191", "title": "A cache created by CreateCache reads back as the data set", "statement": "A CacheDataSource on a directory written by CreateCache has as many positions as the csv has rows; without shuffle position p gives the processed row that CreateCache put at p; with shuffle the positions of one epoch give each row exactly once; this holds after any history of reads and resets.", "quantifier": "every csv, cache size, order, writer schedule, generator and history of reads and resets", "why_tests_cant": "ranges over all histories and permutations", "anchors": ["python/src/nnabla/utils/create_cache.py: CreateCache", "python/src/nnabla/utils/data_source_implements.py: CacheDataSource"]}
{"id": "C192", "title": "A grid value samples the documented position of the image", "statement": "warp_by_grid turns a grid value g along an axis of S pixels into the position (g+1)/2*(S-1) with align_corners and (g+1)/2*S-1/2 without; 'zero' padding samples there, 'repeat' samples the position clamped to the pixel range, and 'reflect' samples the mirror image of the position inside the image, mirrored as often as needed at the outer pixel centres (align_corners) or outer pixel edges (and then clamped).", "quantifier": "every real grid value, every axis length of at least 1 (2 where the mirrors would coincide), every padding, both align_corners", "why_tests_cant": "The number of reflections is unbounded and the parity cases and interval ends are measure-zero for random tests.", "anchors": ["src/nbla/function/generic/warp_by_grid.cpp: unnormalize_grid_with, reflect, get_src_findex_with_*"]}
{"id": "C193", "title": "warp_by_grid interpolates the image at the sampled positions", "statement": "Every output pixel (b,c,h,w) (or (b,c,d,h,w)) is, in linear mode, the sum over the image pixels of channel c of image b of the pixel times the product of the triangular weights of its distance to the sampled position along each axis, pixels outside counting as 0; in nearest mode it is the pixel nearest to the sampled position (halves away from zero), 0 if that is outside. The first grid coordinate is the horizontal one.", "quantifier": "all accepted configurations, shapes, images and grids; 2D and 3D", "why_tests_cant": "Positions range over the reals, including outside the image and exactly on pixel centres.", "anchors": ["src/nbla/function/generic/warp_by_grid.cpp: warp_linear_forward_2d/3d, warp_nearest_forward_2d/3d, get_pixel_value_2d/3d"]}
{"id": "C194", "title": "Gradient of warp_by_grid with respect to the image", "statement": "backward computes the vector-Jacobian product of forward with respect to the image in both modes, with all paddings, in 2D and 3D, adding to the old gradient under accumulation.", "quantifier": "all accepted configurations, shapes, grids, images and output gradients", "why_tests_cant": "Several output pixels add into the same image pixel, depending on the grid; tests sample few grids.", "anchors": ["src/nbla/function/generic/warp_by_grid.cpp: warp_linear_backward_data_2d/3d, warp_nearest_backward_data_2d/3d, backward_impl"]}
{"id": "C195", "title": "Gradient of warp_by_grid with respect to the grid", "statement": "In linear mode backward computes the vector-Jacobian product of forward with respect to the grid, with all paddings.", "quantifier": "all shapes, images, output gradients, and all grids", "why_tests_cant": "The padding modes have kinks and sign changes at every reflection; numerical gradient tests avoid them.", "anchors": ["src/nbla/function/generic/warp_by_grid.cpp: warp_linear_backward_grid_2d/3d, get_grad_coef_with_*"]}
{"id": "C196", "title": "warp_by_grid accepts exactly the shapes it can handle", "statement": "setup accepts an image (B,C,H,W) with a grid (B,H',W',2), or an image (B,C,D,H,W) with a grid (B,D',H',W',3), and nothing else; the output has the channels of the image and the extents of the grid.", "quantifier": "all shapes and arguments", "why_tests_cant": "Refusals must hold for all the ill-formed shapes; tests only use well-formed ones.", "anchors": ["src/nbla/function/generic/warp_by_grid.cpp: setup_impl"]}
{"id": "C197", "title": "affine_grid applies the affine map to the normalised pixel coordinates", "statement": "The grid point of pixel (h,w) is theta[b] applied to (x,y,1) where x and y are the normalised coordinates of the pixel (-1 and 1 being the corner pixel centres with align_corners, the outer edges without); likewise for volumes.", "quantifier": "all batch sizes, sizes, thetas and both align_corners", "why_tests_cant": "Must hold for all sizes, including degenerate ones.", "anchors": ["src/nbla/function/generic/affine_grid.cpp: generate_target_grid_2d/3d, forward_impl"]}
{"id": "C198", "title": "Gradient of affine_grid", "statement": "backward of affine_grid computes the vector-Jacobian product of forward with respect to theta, adding to the old gradient exactly under accumulation.", "quantifier": "all sizes, thetas, output gradients and buffer contents, 2D and 3D", "why_tests_cant": "Gradients are sums over all pixels and must hold for all shapes.", "anchors": ["src/nbla/function/generic/affine_grid.cpp: backward_impl"]}
{"id": "C199", "title": "Warping with the identity gives the image back", "statement": "affine_grid of identity matrices with the size of the image (at least 2 pixels along each axis), followed by warp_by_grid with the same align_corners, returns the image exactly, in both modes and with every padding, in 2D and 3D.", "quantifier": "all batch sizes, channels, sizes >= 2, images, modes, paddings, align_corners", "why_tests_cant": "A composition of two functions over all sizes; off-by-half-pixel conventions of the two must agree for every size.", "anchors": ["src/nbla/function/generic/affine_grid.cpp", "src/nbla/function/generic/warp_by_grid.cpp"]}
{"id": "C20", "title": "Shared inference buffers never alias two live variables and are large enough", "statement": "In an exported NNB/CSRC network, two buffer variables that are both live at some function are assigned different buffers, every buffer is at least as large as every variable assigned to it, and every variable used by a function has a buffer.", "quantifier": "every network (any number of variables, functions, inputs, outputs, sizes)", "why_tests_cant": "graph-shaped input space", "anchors": ["python/src/nnabla/utils/converter/nnablart/save_variable_buffer.py: save_variable_buffer"]}
{"id": "C200", "title": "AdaBelief follows its documented update", "statement": "After any list of gradients the next update of the AdaBelief solver moves each element by alpha * sqrt(1-b2^t)/(1-b1^t) * m_t / (sqrt(s_t + eps) + eps), with m_t and s_t the moving averages of all gradients and of all squared deviations; with amsgrad s_t is replaced by its running maximum; with rectification the step is RAdam's.", "quantifier": "every finite history of gradients, all hyperparameters and option combinations", "why_tests_cant": "Long histories; the effect of the stored eps is invisible in short tests with tiny eps.", "anchors": ["src/nbla/solver/generic/adabelief.cpp: update_impl, set_state_impl", "build-tools/code_generator/solvers.yaml: AdaBelief"]}
{"id": "C201", "title": "AdaBelief's rectification is well defined and only lowers the learning rate", "statement": "Whenever the rectified rate is used (rho_t > 4) the number under its square root lies strictly between 0 and 1.", "quantifier": "all b2 in (0,1), every iteration count", "why_tests_cant": "A statement about all iteration counts and all decay rates.", "anchors": ["src/nbla/solver/generic/adabelief.cpp: update_impl"]}
{"id": "C202", "title": "WarpByFlow samples the image bilinearly at the displaced, clamped position", "statement": "setup accepts exactly images (N,C,H,W) with flows (N,2,H,W) and makes an output of the image's shape. Every output pixel (n,c,y,x) is the bilinear interpolation of the image at (y + flow[n,1,y,x], x + flow[n,0,y,x]) after that position is moved to the nearest point inside the image.", "quantifier": "all image and flow shapes, all pixel values and all flows, including flows that point far outside the image", "why_tests_cant": "Displacements are real numbers that may leave the image at any side or corner; tests sample a few random flows.", "anchors": ["src/nbla/function/generic/warp_by_flow.cpp: setup_impl, forward_impl, clamp_to_index"]}
{"id": "C203", "title": "The image gradient of WarpByFlow is the transpose of the warp", "statement": "With the flow fixed the warp is linear in the image and backward adds to (or, when not accumulating, stores in) the image gradient exactly the transpose of the warp applied to the output gradient, with no write outside the image gradient.", "quantifier": "all shapes, flows, output gradients, previous contents, both accumulation modes", "why_tests_cant": "Several output pixels may read the same image pixel in any pattern a flow can produce.", "anchors": ["src/nbla/function/generic/warp_by_flow.cpp: backward_impl"]}
{"id": "C204", "title": "The flow gradient of WarpByFlow is the derivative of the output with respect to the flow", "statement": "The gradient that backward computes for the flow is the derivative of the warp with respect to the flow, accumulated when asked to.", "quantifier": "all shapes, images, flows and output gradients", "why_tests_cant": "A numerical gradient check at sampled flows does not show the derivative at all flows, and misses flows at pixel centres.", "anchors": ["src/nbla/function/generic/warp_by_flow.cpp: backward_impl"]}
{"id": "C205", "title": "PatchCorrelation computes zero-padded patch correlations at all patch positions and shifts", "statement": "setup accepts exactly two equal NHWC shapes with positive patch sizes and steps and non-negative shifts and paddings; the output is (N, oh, ow, och, ocw) where the extents count exactly the patch positions that end inside the padded image and the shifts of absolute value at most `shift`. Element (n,i,j,k,l) is the sum over the patch and the channels of x1 at the patch position times x2 at the patch position displaced by the shift, both images continued by zero.", "quantifier": "all shapes, patches, shifts, steps, paddings and contents", "why_tests_cant": "Steps that do not divide the extents, paddings and shifts interact with image borders in unboundedly many combinations.", "anchors": ["src/nbla/function/generic/patch_correlation.cpp: setup_impl, forward_impl"]}
{"id": "C206", "title": "The gradients of PatchCorrelation are the transposes in each input", "statement": "With one input fixed the correlation is linear in the other and backward stores (or adds, when accumulating) the transpose applied to the output gradient, writing nothing outside the two gradient arrays.", "quantifier": "all shapes and arguments accepted by setup, all contents and gradients, both accumulation modes", "why_tests_cant": "Patches overlap in arbitrarily many ways; a numerical check samples few.", "anchors": ["src/nbla/function/generic/patch_correlation.cpp: backward_impl"]}
{"id": "C207", "title": "PatchCorrelation writes every element of its output and nothing else", "statement": "After forward each element of the output array depends on the inputs only, not on what the memory held before, and no element outside the array is written.", "quantifier": "all shapes and arguments accepted by setup", "why_tests_cant": "The loops and the size formula are separate pieces of code that must agree for all arguments.", "anchors": ["src/nbla/function/generic/patch_correlation.cpp: setup_impl, forward_impl", "src/nbla/nd_array.cpp: reshape"]}
{"id": "C208", "title": "RoiAlign averages bilinear samples over the bins of each box", "statement": "setup accepts exactly 4-D inputs with [K,5] boxes, a positive output size and a scale pair. forward fails exactly if channel_last is set or a batch index (cut to an integer) is not that of an input sample. Otherwise output (k,c,i,j) is the average, over an evenly spread grid of sampling points in bin (i,j) of box k (sampling_ratio points per axis, or the ceiling of the bin size if sampling_ratio <= 0), of channel c of the box's image interpolated bilinearly at the point, where points more than one pixel outside count as zero and others are moved to the nearest place on the image.", "quantifier": "all image and output sizes, boxes (inside or outside the image), scales and sampling ratios", "why_tests_cant": "Boxes are arbitrary real rectangles; tests sample a few well-formed ones and miss empty boxes.", "anchors": ["src/nbla/function/generic/roi_align.cpp: setup_impl, forward_impl, clamp, sampling_grid"]}
{"id": "C209", "title": "The image gradient of RoiAlign is the transpose of the pooling", "statement": "With the boxes fixed RoiAlign is linear in the image and backward stores (or adds, when accumulating) the transpose applied to the output gradient, writing nothing outside the image gradient.", "quantifier": "all images, boxes, scales, sampling ratios, output gradients and both accumulation modes", "why_tests_cant": "Boxes may overlap in any way.", "anchors": ["src/nbla/function/generic/roi_align.cpp: backward_impl"]}
{"id": "C21", "title": "Executing an exported network with shared buffers computes the same outputs", "statement": "For networks whose inputs are used and whose functions read only defined values: running the functions in order on the shared buffers yields, for each used network output variable, the value obtained when every variable has its own storage. (An unused network input breaks this: it is placed in buffer 0 on top of a live variable.)", "quantifier": "every network, every function semantics, every input, every initial buffer content", "why_tests_cant": "all graphs and all function semantics", "anchors": ["python/src/nnabla/utils/converter/nnablart/save_variable_buffer.py", "python/src/nnabla/utils/converter/nnablart/nnb.py: execute"]}
{"id": "C210", "title": "BroadcastTo repeats y along the axes of x that y does not have", "statement": "If setup accepts x and y, forward succeeds, reads only elements of y, and gives an output of the shape of x whose element j is the element of y at the part of the index j that belongs to the axes of y (those from `axis` on, or the last ones if no axis is given).", "quantifier": "all shapes of x and y, all axes, all contents", "why_tests_cant": "forward has fourteen hand-written cases by ranks and axis; tests instantiate each with one shape.", "anchors": ["src/nbla/function/generic/broadcast_to.cpp: setup_impl, forward_impl, copy_block_to_tail, copy_value_to_block, copy_value_vertically_to_block, copy_buf_vertically_to_block"]}
{"id": "C211", "title": "Imperative calls write the given output arrays", "statement": "A function called on NdArrays, with arrays given for the first outputs (or None), either fails and then changes no existing array, or returns as many arrays as it has outputs: the given arrays themselves with their own shapes, new arrays of the inferred shape for the rest, each holding the value computed for that output; no other array changes. It fails exactly if too many arrays are given, the input shapes are not accepted, or a given array has another size than its output.", "quantifier": "all functions, input lists (also an array that is both input and output), lists of given arrays, heaps of arrays", "why_tests_cant": "Ranges over all aliasings of inputs and outputs and all functions.", "anchors": ["src/nbla/imperative.cpp: execute", "src/nbla/nd_array.cpp: set_array", "src/nbla/function/generic/reshape.cpp: Reshape::setup_impl, forward_impl"]}
{"id": "C212", "title": "A function object can be called again", "statement": "A series of imperative calls of one function object, with anything done to the arrays in between and calls that fail among them, gives what the same calls with a new object each time give.", "quantifier": "all functions, all histories of calls with arbitrary changes of arrays in between", "why_tests_cant": "Quantifies over all histories of calls.", "anchors": ["src/nbla/imperative.cpp: execute", "include/nbla/function.hpp: ask_if_used_and_use", "include/nbla/function/reshape.hpp: Reshape::copy", "src/nbla/function/generic/reshape.cpp: Reshape::setup_impl"]}
{"id": "C213", "title": "Reshape accepts exactly the shapes of the same size", "statement": "Reshape accepts a shape exactly if at most one size is negative and there is a non-negative size in its place that makes the product equal to the number of elements; the shape of the output is the given one with that size filled in.", "quantifier": "all lists of sizes, all numbers of elements", "why_tests_cant": "Ranges over all shapes and sizes.", "anchors": ["src/nbla/function/generic/reshape.cpp: Reshape::setup_impl"]}
{"id": "C214", "title": "ONNX non-maximum suppression keeps the greedy selection", "statement": "The rows of F.onnx_non_max_suppression for a batch item and class are, in descending order of score, the first max_output_boxes_per_class boxes of the greedy selection: scores of at least score_threshold, no two overlapping by more than iou_threshold, and every other box of sufficient score overlaps by more than iou_threshold with a selected box of at least its score. Rows are grouped by batch item and class, and indices are in range.", "quantifier": "all boxes, scores, sizes, thresholds, limits, both box formats, and all ways std::sort may order equal scores", "why_tests_cant": "Ranges over all boxes and scores and all orders of ties.", "anchors": ["src/nbla/function/generic/onnx_non_max_suppression.cpp: non_max_suppression_impl"]}
{"id": "C215", "title": "The overlap ratio of two boxes", "statement": "The intersection over union used by F.onnx_non_max_suppression is symmetric, lies between 0 and 1 for all boxes in both formats, does not depend on which diagonal corners are given, is the same in both formats for the same box, and is 1 for equal boxes of positive size.", "quantifier": "all boxes in both formats, also degenerate ones", "why_tests_cant": "Ranges over all real boxes.", "anchors": ["src/nbla/function/generic/onnx_non_max_suppression.cpp: calculate_iou, calculate_overlap_with_range, calculate_overlap_with_center"]}
{"id": "C216", "title": "Running ONNX non-maximum suppression selects from the current inputs", "statement": "After F.onnx_non_max_suppression is run, its output is the selection for the current boxes and scores.", "quantifier": "all histories of changing the inputs, setting up and running the function", "why_tests_cant": "Quantifies over all histories.", "anchors": ["src/nbla/function/generic/onnx_non_max_suppression.cpp: setup_impl, forward_impl, non_max_suppression"]}
{"id": "C217", "title": "Einsum equations are read as written", "statement": "F.einsum reads an equation as the terms between the commas and the output after '->'; without '->' the output is the ellipsis, if any, followed by the letters that occur exactly once, in ascending order. Spaces do not matter.", "quantifier": "all lists of terms and outputs over letters and ellipses, with and without spaces", "why_tests_cant": "Ranges over all equations.", "anchors": ["src/nbla/function/generic/einsum.cpp: EinsumGraph::preprocess_equation, split_string"]}
{"id": "C218", "title": "Einsum accepts only inputs that fit their terms", "statement": "If F.einsum accepts its inputs, every input has exactly as many dimensions as its term describes, where an ellipsis stands for the same number of dimensions in all terms.", "quantifier": "all terms and numbers of dimensions", "why_tests_cant": "Ranges over all combinations of terms and inputs.", "anchors": ["src/nbla/function/generic/einsum.cpp: EinsumGraph::compute_ellipsis_ndim"]}
{"id": "C219", "title": "Einsum checks the sizes of labels", "statement": "The dimensions of a label are its positions in the term with the ellipsis written out; the sizes are accepted exactly if every letter has one size everywhere and all ellipses can be broadcast to a common shape.", "quantifier": "all terms, all positive shapes", "why_tests_cant": "Ranges over all shapes and terms.", "anchors": ["src/nbla/function/generic/einsum.cpp: EinsumGraph::create_term, validate_input_shapes"]}
{"id": "C22", "title": "NNB memory image lookups return what was stored", "statement": "For every sequence of allocations made while exporting an NNB file, reading len(data) bytes at the offset recorded for index i in the final image returns the i-th data, and every offset is 4-byte aligned.", "quantifier": "every sequence of data blocks", "why_tests_cant": "unbounded", "anchors": ["python/src/nnabla/utils/converter/nnablart/nnb.py: NnbExporter._alloc, _align, execute"]}
{"id": "C220", "title": "The output of einsum has its dimensions in the order written", "statement": "The dimensions of the result of F.einsum are those of the contracted array in the order of the output label: the k-th position of a label in the output holds the k-th dimension of this label (an ellipsis stands for a run of consecutive positions). Output labels that no input has, or that occur twice, are rejected.", "quantifier": "all output labels with at most one ellipsis, all ellipsis lengths, all orders and dimensions of the contracted array", "why_tests_cant": "The positions interleave with the ellipsis in unboundedly many ways; tests use few equations, all of them valid.", "anchors": ["src/nbla/function/generic/einsum.cpp: EinsumGraph::create_einsum_graph, create_term"]}
{"id": "C221", "title": "VAT noise has norm eps per sample", "statement": "F.vat_noise(x, w, base_axis, eps) scales every sample (the dimensions from base_axis on) by eps / sqrt(|sample|^2 + 1e-8): samples do not influence each other, every element is written, nothing outside is, and the l2 norm of no sample exceeds |eps|. Every base axis that setup accepts works, also negative ones.", "quantifier": "all shapes, all base axes, all eps and all values", "why_tests_cant": "Holds for every shape, axis and value; tests use one shape with base axis 1.", "anchors": ["src/nbla/function/generic/vat_noise.cpp: setup_impl, forward_impl", "include/nbla/utils/axis_utils.hpp: refine_axis"]}
{"id": "C222", "title": "VAT noise backward stores eps times the output gradient in w", "statement": "The backward of F.vat_noise replaces every element of w by eps times the gradient of the output, whatever w held, contributes 0 to the gradients of x and w (overwritten by 0 without accumulation, unchanged with it) and does not touch the data of x.", "quantifier": "all sizes, values, propagate_down and accum flags and old contents of the buffers", "why_tests_cant": "Backward has an effect on data instead of gradients, which gradient checks of tests cannot describe, and must hold for all flags and old contents.", "anchors": ["src/nbla/function/generic/vat_noise.cpp: backward_impl", "src/nbla/function.cpp: Function::backward"]}
{"id": "C223", "title": "Fused batch normalization equals batch normalization, addition and ReLU", "statement": "F.fused_batch_normalization computes max(0, batch_normalization(x) + z), and its backward hands the inner batch normalization and z the gradients that the unfused graph of batch_normalization, add2 and relu would, for every combination of propagate_down and accum flags, with or without z, and for every z that forward accepts.", "quantifier": "all sizes, values, flags, old contents of gradient buffers and broadcast patterns of z", "why_tests_cant": "In-place reuse of one buffer for three functions and an uninitialised work buffer must not be observable for any flags and values; tests use z of the shape of x only.", "anchors": ["src/nbla/function/generic/fused_batch_normalization.cpp: forward_impl, backward_impl, relu_add2_backward, relu_backward, add2_backward", "src/nbla/function/generic/add2.cpp: setup_impl, forward_impl", "src/nbla/function/generic/relu.cpp: forward_impl"]}
{"id": "C224", "title": "Adaptive separable convolution computes the documented sum from inside its inputs", "statement": "Whenever F.adaptive_separable_convolution(x, kv, kh) accepts the shapes, it reads only elements of its inputs, and element (b, c, h, w) of the output is the sum over j and i of kv[b, j, h, w] * kh[b, i, h, w] * x[b, c, h+j, w+i]; nothing outside of the output is written.", "quantifier": "all shapes accepted by setup, all values", "why_tests_cant": "The index arithmetic must be right for every shape; tests use kernels of the shape of the output.", "anchors": ["src/nbla/function/generic/adaptive_separable_convolution.cpp: setup_impl, forward_impl"]}
{"id": "C225", "title": "Adaptive separable convolution gives the vertical filter its gradient", "statement": "After the backward of F.adaptive_separable_convolution, the gradient of every element of the vertical filter kv is the partial derivative of the sum of output times output gradient (0 for elements that the output does not use), added to the old gradient exactly if it is to be accumulated.", "quantifier": "all shapes accepted by setup, all values, both accum flags, all old contents of the gradient memory", "why_tests_cant": "Unwritten elements show whatever the memory held, often 0; tests use filters of exactly the extents of the output.", "anchors": ["src/nbla/function/generic/adaptive_separable_convolution.cpp: backward_impl, setup_impl", "src/nbla/function.cpp: Function::backward"]}
{"id": "C226", "title": "Adaptive separable convolution gives the image its gradient", "statement": "After the backward of F.adaptive_separable_convolution, the gradient of every pixel of x is the partial derivative of the sum of output times output gradient: the sum over all output elements and filter elements that meet at this pixel (0 for pixels that no output uses), added to the old gradient exactly if it is to be accumulated; nothing is read or written outside of the arrays.", "quantifier": "all shapes accepted by setup, all values, both accum flags, all old contents of the gradient", "why_tests_cant": "Many outputs add to one pixel in an order that depends on the shape; tests check few small shapes numerically.", "anchors": ["src/nbla/function/generic/adaptive_separable_convolution.cpp: backward_impl", "src/nbla/function.cpp: Function::backward"]}
{"id": "C227", "title": "Adaptive separable convolution gives the horizontal filter its gradient", "statement": "After the backward of F.adaptive_separable_convolution, the gradient of every element of the horizontal filter kh is the partial derivative of the sum of output times output gradient (0 for elements that the output does not use), added to the old gradient exactly if it is to be accumulated.", "quantifier": "all shapes accepted by setup, all values, both accum flags, all old contents of the gradient memory", "why_tests_cant": "Unwritten elements show whatever the memory held, often 0; tests use filters of exactly the extents of the output.", "anchors": ["src/nbla/function/generic/adaptive_separable_convolution.cpp: backward_impl, setup_impl", "src/nbla/function.cpp: Function::backward"]}
{"id": "C228", "title": "Spectral normalization along any axis keeps the layout of the weight", "statement": "F.spectral_norm(w, u, dim) brings axis dim to the front before it works on a matrix, and brings it back afterwards: both transpositions are valid for every dim, and axis i of the result is axis i of w.", "quantifier": "all numbers of dimensions and all axes", "why_tests_cant": "The lists of axes are computed by two different loops; tests cover dims 0 and 1 and the last one, where the two lists coincide or are not used.", "anchors": ["src/nbla/function/generic/spectral_norm.cpp: SpectralNorm::spectral_norm", "src/nbla/function/generic/transpose.cpp: setup_impl"]}
{"id": "C229", "title": "Spectral normalization advances u once per forward and differentiates at the u of the forward", "statement": "In training mode u advances by the power iterations of exactly one forward call for every forward call; backward and recomputation start from the u that the latest forward call started from and leave u unchanged. In test mode u never changes and backward starts from u. This holds also if several functions share one u.", "quantifier": "all histories of forward, recompute and backward calls, all weights and power iterations, any number of functions", "why_tests_cant": "A property of all call histories; tests run one forward and one backward, and skip backward in test mode.", "anchors": ["src/nbla/function/generic/spectral_norm.cpp: forward_impl, recompute_impl, backward_impl, spectral_norm, identity_with_inplace_output"]}
{"id": "C23", "title": "forward() executes every required function once, after its predecessors", "statement": "v.forward() calls the forward of every function v depends on exactly once, no other function, and each one after the functions producing its inputs; afterwards each function's rank is one more than the maximum rank of its inputs and need_grad is the disjunction over its inputs.", "quantifier": "every acyclic graph", "why_tests_cant": "all graphs", "anchors": ["src/nbla/computation_graph/variable.cpp: CgVariable::visit_function_recursive, CgVariable::forward"]}
{"id": "C230", "title": "Binary weight affine uses the best binary approximation of its weights", "statement": "F.binary_weight_affine replaces the weights of every output by sign(w) times one scale, the mean absolute value of these weights, which is the best approximation (least squares) of the weights by a scale and signs; the scale is the one documented; the gradient of the used weights is passed to the float weights unchanged, added exactly if it is to be accumulated.", "quantifier": "all weight matrices, all values, all competing scales and signs, all quantize_zero_to", "why_tests_cant": "Optimality ranges over all scales and signs; the reference in the tests repeats the computation of the program.", "anchors": ["src/nbla/function/generic/binary_weight_affine.cpp: forward_impl, backward_impl", "include/nbla/function/sign.hpp", "build-tools/code_generator/functions.yaml: BinaryWeightAffine"]}
{"id": "C231", "title": "Linear ONNX resize interpolates between neighbouring pixels and clamps at the borders", "statement": "In linear mode F.onnx_resize (one dimension) reads only pixels of the source; at a source position between pixels i and i+1 the output is their linear interpolation, before the first and behind the last pixel it is that pixel, so the output never leaves the range of the source.", "quantifier": "all lengths, all source positions (inside and outside), all values", "why_tests_cant": "Positions come from scales, sizes and six coordinate modes; the clamped neighbours and the coefficients are computed separately and must agree for all of them.", "anchors": ["src/nbla/function/generic/onnx_resize.cpp: LinearInterpolation::compute_coeffs, compute_neighbors, generic_interpolate_1d"]}
{"id": "C232", "title": "Cubic ONNX resize keeps constants and pixels and can exclude the outside", "statement": "In cubic mode F.onnx_resize (one dimension) reads only pixels of the source, keeps constant sources constant for every coefficient a, and returns the pixel at the position of a pixel; with exclude_outside the coefficients still sum to 1 and pixels outside of the source have no influence.", "quantifier": "all lengths, all positions, all coefficients a, all values", "why_tests_cant": "Ranges over all real positions and coefficients; tests use a = -0.75 and -0.5.", "anchors": ["src/nbla/function/generic/onnx_resize.cpp: CubicInterpolation::compute_coeffs, compute_neighbors, generic_interpolate_1d"]}
{"id": "C233", "title": "ONNX resize in nearest mode picks the nearest pixel", "statement": "For every position, nearest mode reads a pixel of the source: round_prefer_ceil the nearest pixel (of two equally near ones the second), round_prefer_floor the nearest (of two equally near ones the first), floor the last pixel not behind the position, ceil the first pixel not before it, the border pixel if there is none. Only with tf_crop_and_resize, and exactly for positions outside of the source, the extrapolation value is written instead.", "quantifier": "all positions (also outside of the source), source lengths, nearest and coordinate modes", "why_tests_cant": "Halfway positions, negative positions (std::round rounds away from zero) and the clamping interact; a test samples few positions.", "anchors": ["src/nbla/function/generic/onnx_resize.cpp: get_nearest_index, nearest_interpolate_1d"]}
{"id": "C234", "title": "ONNX resize maps output indices to source positions as documented", "statement": "align_corners maps the first and last output to the first and last pixel and all outputs inside of the source; half_pixel maps pixel centres proportionally, hence symmetrically under a flip of the axis; asymmetric divides by the scale; tf_crop_and_resize maps the first and last output to the ends of the region of interest; with scale 1 nothing is moved.", "quantifier": "all positive scales, lengths, output indices and regions", "why_tests_cant": "The symmetry and border conditions concern every combination of lengths and scale.", "anchors": ["src/nbla/function/generic/onnx_resize.cpp: get_src_index"]}
{"id": "C235", "title": "The differentiable backward of max pooling routes each gradient to the first maximum of its window", "statement": "For 2-d max pooling with less padding than kernel, the backward function writes to each input pixel the sum of the output gradients of exactly the windows whose first largest pixel (row-major) it is, each window choosing one pixel inside of the image and of the window; its own gradient with respect to the output gradients reads the incoming gradient at the same pixel (overwriting or accumulating as requested), so that it is the adjoint of the forward.", "quantifier": "all images, batch and channel counts, kernels, strides, paddings below the kernel, both border modes, all gradients", "why_tests_cant": "Overlapping windows, ties and clipped windows combine; a gradient check tests few shapes and avoids ties.", "anchors": ["src/nbla/function/generic/max_pooling_backward.cpp: max_pooling_2d_forward, max_pooling_2d_backward", "src/nbla/function/utils/base_pooling.cpp"]}
{"id": "C236", "title": "BinaryConnect affine computes with the signs and trains the float weights", "statement": "binary_connect_affine computes the affine map with the signs of the weights (quantize_zero_to for zeros), leaving the float weights as they are, so weights of equal signs give equal outputs; its backward gives the float weights exactly the gradient with respect to the binary weights, overwriting or accumulating as requested and independent of what the binary weights' gradient held; the input gets the gradient through the binary weights; gradients not requested are not touched.", "quantifier": "all inputs, weights, biases, shapes, output gradients, propagate and accumulate flags and earlier gradients", "why_tests_cant": "The gradient check does not apply to the sign function; accumulation through an intermediate buffer must be right for all flags and earlier contents.", "anchors": ["src/nbla/function/generic/binary_connect_affine.cpp", "include/nbla/function/sign.hpp"]}
{"id": "C24", "title": "backward() visits each function once, after all its consumers on the gradient path", "statement": "v.backward() calls the backward of each need_grad function reachable through need_grad inputs exactly once, and only after the backward of every such function consuming its outputs.", "quantifier": "every acyclic graph with consistent ranks", "why_tests_cant": "all graphs and tie-breaks", "anchors": ["src/nbla/computation_graph/variable.cpp: CgVariable::visit_function_backward"]}
{"id": "C25", "title": "backward() computes the sum over all paths (chain rule)", "statement": "After v.backward(g), the gradient of each intermediate variable and each (initially zeroed) leaf equals the sum over all consumers of the consumer's vector-Jacobian product - fan-out is accumulated, the first contribution overwrites stale data, leaves accumulate onto existing gradients.", "quantifier": "every acyclic graph, every linear vjp, every initial gradient buffer", "why_tests_cant": "all graphs, all stale buffer contents", "anchors": ["src/nbla/computation_graph/variable.cpp: BackwardCallback::get_accum, force_zero_grad_if_unseen", "src/nbla/function.cpp: Function::backward"]}
{"id": "C26", "title": "Clearing buffers during forward never destroys a needed value", "statement": "With clear_buffer or clear_no_need_grad, every function reads input data that has not been cleared; persistent variables, graph inputs and (under clear_no_need_grad) data needed by backward are never cleared.", "quantifier": "every graph, every in-place flags and flag combinations", "why_tests_cant": "all graphs", "anchors": ["src/nbla/computation_graph/variable.cpp: ForwardCallback::get_clear_flags, check_last_visit"]}
{"id": "C27", "title": "An array and its narrowed parts always read back the last write, whatever device/dtype they are read through", "statement": "For every sequence of narrow, destruction of narrowed arrays, zero, fill, cast (read-modify-write or write-only), get (read) and clear calls on an NdArray and the arrays narrowed from it, through any contexts and dtypes, every read returns the value of the most recent write/zero/fill covering the element, converted along the dtypes it was held in; lazy zero/fill are indistinguishable from eager ones and the same calls raise. For arrays that are never narrowed there is no restriction; for families the code keeps the promise only when clear() is not called while a part is alive, no part is destroyed with a pending zero/fill, and narrow is applied at most to parts of arrays starting at element 0.", "quantifier": "every operation sequence, every tree of narrowed arrays, every set of (dtype, context) keys, sizes and element values", "why_tests_cant": "unbounded histories over a tree of lazily evaluated shared buffers", "anchors": ["src/nbla/synced_array.cpp: SyncedArray::cast_sp, get_sp, sync, zero, fill, clear, create_array_from_parent, clear_all_array_descendants, traverse_zero_fill", "src/nbla/nd_array.cpp: NdArray::narrow"]}
{"id": "C28", "title": "zeroing tells exactly whether the array is known to be zero", "statement": "NdArray.zeroing is True iff zero() was called on the array (or one it is part of) and since then neither fill() nor a write was made to it, to a part of it or to an array it is part of; an array reporting zeroing reads as zero wherever its content is defined.", "quantifier": "every operation sequence on an array and the arrays narrowed from it", "why_tests_cant": "unbounded histories", "anchors": ["src/nbla/synced_array.cpp: SyncedArray::zero, fill, cast_sp, propagate_zeroing_flag, propagate_zeroing_flag_descendants"]}
{"id": "C29", "title": "Live allocations never overlap and never move", "statement": "In every history of allocations, frees, cache releases and device failures, the memory blocks held by live arrays are pairwise disjoint, lie inside memory obtained from the right device and not yet returned to it, are at least as large as requested, and stay at their place until freed.", "quantifier": "every history of alloc/free/free_unused_caches, every size, every pattern of device failures", "why_tests_cant": "unbounded histories", "anchors": ["src/nbla/memory/caching_allocator_with_buckets.cpp", "src/nbla/memory/memory.cpp", "src/nbla/memory/allocator.cpp"]}
{"id": "C30", "title": "Cached blocks are coalesced, reused, and memory accounting is exact", "statement": "With the caching allocator, after every history: no two neighbouring blocks of one device allocation are both free; every byte obtained and not returned belongs to exactly one live or cached block; the used-bytes counter equals live plus cached bytes; a request a cached block can serve takes a smallest such block and never asks the device; free_unused_device_caches returns exactly the device allocations without a live block; when everything is freed, free_unused_caches returns all device memory and the counter is 0.", "quantifier": "every history", "why_tests_cant": "unbounded histories", "anchors": ["src/nbla/memory/caching_allocator_with_buckets.cpp", "src/nbla/memory/allocator.cpp"]}
{"id": "C31", "title": "Solver.set_parameters with reset=False overwrites", "statement": "After solver.set_parameters(d, reset=False), get_parameters() maps each key of d to d's variable and leaves the others. (Refuted: an existing key keeps the old variable.) With reset=True the registry is exactly d, with one fresh state per key.", "quantifier": "every registry and dictionary", "why_tests_cant": "histories", "anchors": ["src/nbla/solver.cpp: Solver::set_parameters, remove_parameters, clear_parameters"]}
{"id": "C32", "title": "Solver hooks surround the update", "statement": "For each updated parameter the pre hook runs before and the post hook after the parameter's update. (Refuted: the post hook runs before the update.)", "quantifier": "every parameter set and hook", "why_tests_cant": "all histories", "anchors": ["src/nbla/solver.cpp: ScopedCallback, Solver::update"]}
{"id": "C33", "title": "Strides and multi-indices are inverse", "statement": "For every shape the C-contiguous strides give a bijection between multi-indices and flat offsets below the size, consistent with row-major order, and flat2nd/nd2flat are inverse.", "quantifier": "every shape", "why_tests_cant": "unbounded rank and extents", "anchors": ["include/nbla/common.hpp: get_c_contiguous_strides", "include/nbla/utils/nd_index.hpp", "src/nbla/array/array.cpp"]}
{"id": "C34", "title": "Packing and unpacking sequences is lossless", "statement": "pad_packed_sequence(pack_padded_sequence(pad_sequence(seqs), lengths)) returns every row of every sequence at its place, the padding value elsewhere, and the lengths, for sorted sequences and with enforce_sorted=False for any order, with or without total_length. (Refuted: padding_value is ignored; empty sequences are lost; a time axis longer than the longest sequence reads uninitialised batch sizes; enforce_sorted=True does not check the order.)", "quantifier": "every list of sequences, of any lengths, order, layouts and buffer contents", "why_tests_cant": "unbounded lists and uninitialised memory", "anchors": ["python/src/nnabla/utils/rnn.py: pad_sequence, pack_padded_sequence, pad_packed_sequence", "include/nbla/function/utils/rnn.hpp", "src/nbla/function/generic/pack_padded_sequence.cpp", "src/nbla/function/generic/pad_packed_sequence.cpp"]}
{"id": "C35", "title": "Dynamic loss scaling never applies an update from non-finite gradients", "statement": "DynamicLossScalingUpdater.update applies the solver update only when no gradient is inf/nan, halves the scale (and retries) otherwise, and grows it only after N consecutive clean steps.", "quantifier": "every sequence of overflow outcomes", "why_tests_cant": "unbounded histories", "anchors": ["python/src/nnabla/experimental/mixed_precision_training.py"]}
{"id": "C36", "title": "Module parameters round-trip through set_parameters", "statement": "For a tree of Modules, every key produced by get_parameters() is accepted by set_parameters and addresses the same parameter; shared parameters are listed once.", "quantifier": "every module tree", "why_tests_cant": "unbounded trees", "anchors": ["python/src/nnabla/core/module.py"]}
{"id": "C37", "title": "Saving and loading parameters is lossless and order preserving", "statement": "For every registry reachable through the API, load_parameters of what save_parameters wrote, into an empty registry of any process, succeeds and saving again writes the identical sequence of records (names in the same order, shapes, data, need_grad).", "quantifier": "every reachable registry and heap, every initial process state", "why_tests_cant": "registries are unbounded trees with arbitrary names; order and completeness must hold for all of them", "anchors": ["python/src/nnabla/parameter.py: save_parameters, load_parameters, set_parameter_from_proto", "python/src/nnabla/utils/get_file_handle.py: _protobuf_parameter_file_saver, _h5_parameter_file_saver"]}
{"id": "C38", "title": "CSV data iterator visits every row once per epoch", "statement": "An iterator over a CsvDataSource returns in every epoch every row exactly once for every batch size (also when batches cross epoch ends); without shuffle in file order; the reported epoch is floor(k*B/n).", "quantifier": "every number of rows, batch size, permutation stream, number of calls", "why_tests_cant": "unbounded histories and all permutations", "anchors": ["python/src/nnabla/utils/data_source_implements.py: CsvDataSource.reset, _get_data", "python/src/nnabla/utils/data_iterator.py"]}
{"id": "C39", "title": "MonitorTimeElapsed accounts for all the time; MonitorImage saves once per window", "statement": "After any sequence of MonitorTimeElapsed.add calls the elapsed times printed add up to the total printed in the last line, the iteration counts add up to the last index plus one, each line belongs to one add call and covers at least interval iterations; MonitorImage/MonitorImageTile write an image exactly at index 0 and at indices k*interval-1.", "quantifier": "every sequence of add calls, every interval and clock readings", "why_tests_cant": "unbounded call sequences", "anchors": ["python/src/nnabla/monitor.py: MonitorTimeElapsed.add, MonitorImage.add"]}
{"id": "C40", "title": "The gradient of slicing is the transpose of slicing", "statement": "For slices whose bounds lie in the range the code handles like NumPy (see C18), backward of x[s1,...,sn] adds to the input gradient at each position exactly the output gradients of the result elements that forward copied from that position, and leaves all other positions unchanged.", "quantifier": "every shape, every in-range slice per axis, every gradient", "why_tests_cant": "unbounded ranks, extents, steps", "anchors": ["src/nbla/function/generic/slice.cpp: slice_forward_recursive, slice_backward_recursive"]}
{"id": "C41", "title": "An exported NNB file describes exactly the network", "statement": "Reading an exported NNB file by following its index table gives back version, API level, buffer sizes, every variable (shape, type, fixed-point position, stored bytes or buffer number), every function (id, implementation, input and output variables, arguments) and the network inputs and outputs, whenever all numbers fit their fields.", "quantifier": "every network with numbers in range", "why_tests_cant": "unbounded networks, alignment and offsets of every combination of argument kinds", "anchors": ["python/src/nnabla/utils/converter/nnablart/nnb.py: NnbExporter.execute, _alloc"]}
{"id": "C42", "title": "Fixed-point parameters are accurate to one unit in the last place", "statement": "Exporting parameters as FIXED8/FIXED16 without a given position chooses a position such that every stored integer fits the type and stored/2^position differs from the parameter by at most 2^-position. (Refuted: a user-given position outside the 4-bit field is accepted and recorded modulo 16.)", "quantifier": "every parameter array, every width", "why_tests_cant": "all real arrays, rounding and clipping boundaries", "anchors": ["python/src/nnabla/utils/converter/nnablart/nnb.py: __compute_int_bit_num, execute"]}
{"id": "C43", "title": "forward() re-runs setup exactly where needed", "statement": "v.forward() calls setup again on exactly those functions needed by v that have an input marked as changed (reset shape) or an input produced by a function that is itself set up again, and on each at most once.", "quantifier": "every acyclic graph, every set of marks", "why_tests_cant": "all graphs and all mark patterns", "anchors": ["src/nbla/computation_graph/variable.cpp: visit_function_recursive, mark_need_setup, check_and_unmark_need_setup"]}
{"id": "C44", "title": "forward_all executes shared ancestors once", "statement": "nn.forward_all(vs) executes every function needed by some variable of vs exactly once over the whole call, after its predecessors, and nothing else; ranks and need_grad of all of them are consistent afterwards.", "quantifier": "every acyclic graph, every list of variables (with repetitions, leaves and ancestors of each other)", "why_tests_cant": "all graphs and lists", "anchors": ["src/nbla/computation_graph/computation_graph.cpp: forward_all"]}
{"id": "C45", "title": "backward() is correct on a dynamically built graph without forward()", "statement": "In dynamic mode (auto_forward), after building a graph by applying functions, backward from any computed variable runs every required function exactly once and after all its consumers. (Refuted when some variable is also explicitly forwarded while the graph is under construction.)", "quantifier": "every construction history, any fan-in, fan-out, repeated inputs, changes of need_grad", "why_tests_cant": "all histories", "anchors": ["src/nbla/computation_graph/computation_graph.cpp: set_function_inputs, create_function_outputs, connect", "src/nbla/computation_graph/variable.cpp: visit_function_backward"]}
{"id": "C46", "title": "function_reference_count counts the uses of a variable", "statement": "The reference count of a variable equals the number of times it is an input of existing functions. (Refuted: each destroyed function leaves one reference behind; proved: count = live uses + number of destroyed users, hence never too small.)", "quantifier": "every history of creating and destroying functions, with repeated inputs", "why_tests_cant": "all histories", "anchors": ["src/nbla/computation_graph/variable.cpp: insert_function_reference, remove_function_reference", "src/nbla/computation_graph/function.cpp: ~CgFunction"]}
{"id": "C47", "title": "In-place functions never destroy data that is still needed", "statement": "If forward() succeeds, every function has read the values the graph defines, although in-place functions overwrite arrays: a variable loses its value only to its single user, and every value on which a needed gradient depends survives until backward. In-placing a variable that has another user, or on which a gradient depends, raises an error. Refuted parts: modifying a reshape of a reshape (or unlink of an unlink) of a variable with other users passes the check and corrupts it; under auto_forward a user connected after the in-place function reads overwritten data.", "quantifier": "all graphs, in-place levels, gradient dependencies, need_grad flags and values", "why_tests_cant": "Corruption needs a particular sharing pattern and execution order among all graphs.", "anchors": ["src/nbla/computation_graph/function.cpp: CgFunction::check_data_inplace", "src/nbla/computation_graph/function.cpp: CgFunction::verify_during_forward", "src/nbla/computation_graph/computation_graph.cpp: connect", "include/nbla/function/reshape.hpp", "include/nbla/function/unlink.hpp"]}
{"id": "C48", "title": "backward() is the transposed Jacobian of the whole graph", "statement": "If every function's backward is the adjoint of its linearisation, what v.backward(g) adds to the gradients of the leaves is the adjoint of the linearisation of the whole graph: <g, tangent of v> = sum over leaves of <added gradient, tangent of leaf> for every tangent. (All inputs active; no output consumed on the gradient path switched off by need_grad=False.)", "quantifier": "every acyclic graph, kernels, gradient, stale buffers, with and without clear_buffer", "why_tests_cant": "all graphs", "anchors": ["src/nbla/computation_graph/variable.cpp: CgVariable::backward, BackwardCallback"]}
{"id": "C49", "title": "modification_count and clear_called report the history of the array", "statement": "modification_count is the number of modifications (zero, fill, write) since allocation or the last clear(); clear_called is True iff clear() was the last call.", "quantifier": "every sequence of zero, fill, write, read and clear on an array that is not narrowed", "why_tests_cant": "unbounded histories", "anchors": ["src/nbla/synced_array.cpp: SyncedArray::modification_count, clear_called, clear_all_array, cast_sp, zero, fill", "python/src/nnabla/_nd_array.pyx: NdArray.modification_count, clear_called"]}
{"id": "C50", "title": "The naive allocator's used-bytes counter", "statement": "With the allocator without caching, device_memory_used_in_bytes is the number of bytes held by live arrays. (Refuted: frees are never subtracted; the counter is the number of bytes ever allocated.)", "quantifier": "every history of alloc/free", "why_tests_cant": "unbounded histories", "anchors": ["include/nbla/memory/naive_allocator.hpp", "src/nbla/memory/allocator.cpp"]}
{"id": "C51", "title": "Solver states follow the registered parameters", "statement": "After any history of solver calls (also ones that raised), update() finds a state for every registered parameter; get_states() has exactly the registered keys; set_parameters gives each key a fresh state with count 0; the state arrays have the sizes of the parameters; the iteration count of a parameter is the number of updates with a computed gradient since its registration. (Refuted for Sgd, which never erases states, and for set_parameters(reset=False) with another shape.)", "quantifier": "every solver class and every sequence of API calls", "why_tests_cant": "unbounded histories", "anchors": ["src/nbla/solver.cpp: Solver::set_parameters, remove_parameters, clear_parameters, update", "src/nbla/solver/generic/sgd.cpp: remove_state_impl"]}
{"id": "C52", "title": "weight_decay applies once, to the next update", "statement": "In solvers with fused weight decay, weight_decay(r) touches no array, and the next update() uses the rate of the last weight_decay call since the previous update, or else the constructor's rate; in the other solvers weight_decay(r) adds r*data to every computed gradient at once. (Refuted after an update that raised: the rate stays.)", "quantifier": "every history of calls", "why_tests_cant": "unbounded histories", "anchors": ["src/nbla/solver.cpp: Solver::weight_decay, update", "include/nbla/solver/weight_decay.hpp"]}
{"id": "C53", "title": "update() steps each parameter exactly once, independently", "statement": "With distinct variables, update() applies the solver's rule once to every parameter whose gradient was computed, using only that parameter's data, gradient and state; it touches nothing else, and the iteration order of the registry does not matter. scale_grad and the gradient checks cover exactly the registered parameters with computed gradients.", "quantifier": "every registry, memory, rule and iteration order", "why_tests_cant": "hash-map order and unbounded registries", "anchors": ["src/nbla/solver.cpp: Solver::update, scale_grad, check_inf_grad, check_nan_grad, check_inf_or_nan_grad", "include/nbla/solver/mixed_precision_training.hpp"]}
{"id": "C54", "title": "save_states / load_states is lossless", "statement": "load_states of the file written by save_states restores every state array and count. (Refuted in h5 when one parameter name is a prefix of another, and in set_states when states have different array names.)", "quantifier": "every set of states, any order of visiting the file", "why_tests_cant": "all names", "anchors": ["python/src/nnabla/solver.pyx: save_states, load_states, set_states, set_states_to_protobuf, set_states_from_protobuf"]}
{"id": "C55", "title": "clip_grad_by_norm clips", "statement": "After clip_grad_by_norm(c) the gradient norm is at most |c|; smaller gradients are unchanged; the direction is kept for c>0; clipping is idempotent. (Direction refuted for negative c, which is accepted.)", "quantifier": "every gradient and c, over the reals", "why_tests_cant": "continuous domain", "anchors": ["include/nbla/solver/clip_grad.hpp: clip_grad_by_norm_cpu"]}
{"id": "C56", "title": "AdaBound and AMSBound keep the step size between their bounds", "statement": "The step size of every update lies between final_lr*(1-1/(gamma*t+1)) and final_lr*(1+1/(gamma*t)) and tends to final_lr. (Refuted for AMSBound: its upper bound is final_lr*(1+t/gamma).)", "quantifier": "every count, state and hyper-parameters, over the reals", "why_tests_cant": "limits", "anchors": ["src/nbla/solver/generic/adabound.cpp", "src/nbla/solver/generic/amsbound.cpp"]}
{"id": "C57", "title": "zero_grad and solver hooks registry", "statement": "zero_grad() zeroes exactly the registered gradients; update() right after it changes nothing; global hooks: a key keeps its first callback until unset, unset removes it and nothing else, keys stay distinct.", "quantifier": "every registry and hook history", "why_tests_cant": "unbounded histories", "anchors": ["src/nbla/solver.cpp: Solver::zero_grad", "src/nbla/global_solver_callback.cpp"]}
{"id": "C58", "title": "Solver rules never take a square root of a negative number or divide by zero", "statement": "For every history of gradients, the radicands of Adam, RMSpropGraves and Adadelta are non-negative and their denominators positive; AMSGRAD's maximum never decreases; Lars never raises for a non-negative decay.", "quantifier": "every sequence of gradients, over the reals", "why_tests_cant": "unbounded histories, continuous domain", "anchors": ["src/nbla/solver/generic/adam.cpp", "src/nbla/solver/generic/rmsprop_graves.cpp", "src/nbla/solver/generic/adadelta.cpp", "src/nbla/solver/generic/amsgrad.cpp", "src/nbla/solver/generic/lars.cpp"]}
{"id": "C59", "title": "Adaptive solvers take bounded steps", "statement": "No history and no gradient moves an element in one update by more than lr (Adagrad, Lion), lr/sqrt(1-decay) (RMSprop), alpha_t(1-b1)/sqrt((1-b2)(1-b1^2/b2)) (Adam), and the analogous bound for Adamax.", "quantifier": "every sequence of gradients, over the reals", "why_tests_cant": "unbounded histories, continuous domain", "anchors": ["src/nbla/solver/generic/adagrad.cpp", "src/nbla/solver/generic/rmsprop.cpp", "src/nbla/solver/generic/adam.cpp", "src/nbla/solver/generic/adamax.cpp", "src/nbla/solver/generic/lion.cpp"]}
{"id": "C60", "title": "Adaptive solvers are invariant under loss scaling", "statement": "With eps=0, multiplying every gradient by the same positive constant does not change the parameters reached by Adam, AMSGRAD, Adamax, Adagrad, RMSprop; Lion is invariant as it is.", "quantifier": "every sequence of gradients and constant, over the reals", "why_tests_cant": "unbounded histories, continuous domain", "anchors": ["src/nbla/solver/generic"]}
{"id": "C61", "title": "Relations between solvers", "statement": "Momentum and Nesterov with momentum 0 are Sgd; Nesterov's parameters are the look-ahead points of the textbook iteration; AdamW/SgdW with rate 0 are Adam/Momentum and otherwise decay outside the moments; weight_decay in Sgd is the gradient of the L2 penalty; a zero learning rate freezes parameters (except accumulated momentum).", "quantifier": "every state, gradient and hyper-parameters, over the reals", "why_tests_cant": "continuous domain", "anchors": ["src/nbla/solver/generic"]}
{"id": "C62", "title": "Lamb's step length", "statement": "When the direction is not negligible, one Lamb update moves the parameter array by exactly eta times its norm clamped to [gamma_l, gamma_u].", "quantifier": "every array, direction and hyper-parameters, over the reals", "why_tests_cant": "continuous domain", "anchors": ["src/nbla/solver/generic/lamb.cpp"]}
{"id": "C63", "title": "Training follows the textbook rule element by element", "statement": "Constructing a solver, calling set_parameters and training for any number of rounds raises nothing, and each element of each parameter follows the solver's textbook recurrence on its own gradient history, independently of all others (Sgd: x - lr*sum of gradients).", "quantifier": "every set of parameters, arrays, gradients and number of rounds, over the reals", "why_tests_cant": "unbounded histories", "anchors": ["src/nbla/solver.cpp", "src/nbla/solver/generic/sgd.cpp", "src/nbla/solver/generic/momentum.cpp", "src/nbla/solver/generic/nesterov.cpp", "src/nbla/solver/generic/adagrad.cpp", "src/nbla/solver/generic/rmsprop.cpp", "src/nbla/solver/generic/adam.cpp", "src/nbla/solver/generic/adamw.cpp", "src/nbla/solver/generic/lion.cpp"]}
{"id": "C64", "title": "Gradients of pack/pad sequence functions", "statement": "The backward of F.pack_padded_sequence and F.pad_packed_sequence is the transpose of the forward (the inner products agree for all arrays), and with accumulation it adds exactly that to the existing gradient.", "quantifier": "every array, batch-size vector, layout, total_length", "why_tests_cant": "all shapes and values", "anchors": ["include/nbla/function/utils/rnn.hpp: pack, unpack, pack_batch_first, unpack_batch_first"]}
{"id": "C65", "title": "Module.training reaches the whole tree", "statement": "After m.training = b, reading .training on m and on every module reachable through its submodules gives b; the flag of any other module object is unchanged.", "quantifier": "every module tree (a module object may occur several times) and every prior state of the flags", "why_tests_cant": "unbounded trees and sharing patterns", "anchors": ["python/src/nnabla/core/module.py:Module.__setattr__", "python/src/nnabla/core/module.py:Module.training"]}
{"id": "C66", "title": "Module attributes read back what was assigned", "statement": "Assigning a value or a Module to an attribute of a Module and reading the attribute gives the assigned object; other attributes are unchanged; a replaced submodule no longer counts as a submodule.", "quantifier": "every module state, attribute name and value", "why_tests_cant": "all assignment histories", "anchors": ["python/src/nnabla/core/module.py:Module.__setattr__", "python/src/nnabla/core/module.py:Module.__getattr__"]}
{"id": "C67", "title": "Half to float conversion is exact and reversible", "statement": "(float)h has exactly the value and sign of the half h (subnormals, zeros, infinities included; NaNs stay NaNs), and converting back gives the same 16 bits, for every half.", "quantifier": "all 65536 half bit patterns", "why_tests_cant": "tests sample values; subnormals, NaN payloads and signed zeros are corner cases", "anchors": ["include/nbla/float_bits.hpp:upconvert_to,downconvert_to", "include/nbla/half.hpp:halfbits2float"]}
{"id": "C68", "title": "Float to half conversion rounds to nearest even, monotonically", "statement": "Half(x) is the half nearest to the float x, ties to even, overflowing to infinity exactly when IEEE rounding does; sign and NaN-ness are kept; x <= y in magnitude implies Half(x) <= Half(y) in magnitude.", "quantifier": "all 2^32 float bit patterns", "why_tests_cant": "2^32 inputs, errors sit at ties and below the normal range", "anchors": ["include/nbla/float_bits.hpp:downconvert_to,round_ties_to_even", "src/nbla/half.cpp"]}
{"id": "C69", "title": "Half arithmetic helpers agree with the numbers they denote", "statement": "-h flips exactly the sign; == on halves agrees with == on the values; numeric_limits<Half>::max() is the largest finite half.", "quantifier": "all halves and pairs of halves", "why_tests_cant": "2^32 pairs; special values", "anchors": ["src/nbla/half.cpp:operator-,operator==", "include/nbla/half.hpp:numeric_limits<Half>"]}
{"id": "C70", "title": "nn.grad returns the sum over the outputs of the gradients", "statement": "nn.grad(outputs, inputs, grad_outputs) returns, for every input, the sum over the outputs of (given gradient or ones) times the derivative of the output with respect to that input, following every path of the graph exactly once; inputs the outputs do not depend on get zero.", "quantifier": "every acyclic graph (shared variables, multi-output functions, repeated arguments, None gradients, gradient graphs of gradient graphs), every list of outputs, inputs and given gradients, every backward functions", "why_tests_cant": "The traversal (priority queue on ranks, pruning by descendants of the inputs, overwriting dictionaries) is correct or not depending on the graph shape; tests use a handful of shapes, mostly one output.", "anchors": ["python/src/nnabla/grad.py:Grad.__call__", "python/src/nnabla/grad.py:Grad._connect_on_gradient_graph", "python/src/nnabla/grad.py:Grad._get_children", "python/src/nnabla/grad.py:Grad._get_corresponding_vars_on_graph"]}
{"id": "C71", "title": "nn.grad and Variable.backward agree, also about need_grad", "statement": "For a leaf input with zeroed gradient, y.backward() leaves in x.grad what nn.grad([y],[x]) returns; an input with need_grad False gets zero from nn.grad.", "quantifier": "every graph, kernels, stale gradient buffers, need_grad flags", "why_tests_cant": "Two independent traversals (C++ and Python) must coincide on every graph.", "anchors": ["python/src/nnabla/grad.py:Grad.__call__", "src/nbla/computation_graph/variable.cpp:CgVariable::backward"]}
{"id": "C72", "title": "transpose moves every element to its permuted index, and its gradient moves back", "statement": "transpose(x, axes) returns an array whose extent on axis i is x.shape[axes[i]] and which holds x[k] at (k[axes[0]], k[axes[1]], ...); backward adds the output gradient at the permuted position to the input gradient (or overwrites it when accumulation is off). Negative axes count from the end. The result does not depend on how the implementation merges neighbouring axes.", "quantifier": "every shape, every number of dimensions, every permutation of the axes, all data, accumulation on or off", "why_tests_cant": "The implementation merges runs of axes before looping and chooses loop code by the number of merged axes; correctness has to hold for all permutations of any rank.", "anchors": ["src/nbla/function/generic/transpose.cpp:Transpose::setup_impl", "src/nbla/function/generic/transpose.cpp:Transpose::forward_impl", "src/nbla/function/generic/transpose.cpp:Transpose::backward_impl"]}
{"id": "C73", "title": "broadcast follows NumPy's rule and its gradient sums over stretched axes", "statement": "broadcast(x, shape) is accepted exactly when every axis of x (aligned with the last axes of shape) has extent 1 or the extent of shape; the result at j is x at j with stretched axes set to 0; backward is the transpose of that map.", "quantifier": "every input and target shape, all data, accumulation on or off", "why_tests_cant": "The index arithmetic uses strides set to 0 for stretched axes, for any rank and extents.", "anchors": ["src/nbla/function/generic/broadcast.cpp:Broadcast::setup_impl", "src/nbla/function/generic/broadcast.cpp:strided_index"]}
{"id": "C74", "title": "concatenate, stack and split place every slice where NumPy does; incompatible inputs are rejected", "statement": "concatenate(x0..xn, axis) holds element i along axis of input c at d0+...+d(c-1)+i; stack inserts a new axis whose slice c is input c; split returns the slices; each backward hands the corresponding part of the output gradient back, accumulating per input; inputs that differ in another extent or in rank are rejected.", "quantifier": "every list of shapes, every axis (negative included), all data, every accumulation flag", "why_tests_cant": "Block copies are computed from products of extents before and after the axis; must hold for every rank, axis and list of inputs.", "anchors": ["src/nbla/function/generic/concatenate.cpp:Concatenate::setup_impl", "src/nbla/function/generic/stack.cpp:Stack::forward_impl", "src/nbla/function/generic/split.cpp:Split::forward_impl"]}
{"id": "C75", "title": "flip and shift select the mirrored or shifted element; gradients are the transposes", "statement": "flip(x, axes) mirrors the index along the listed axes; shift(x, shifts, border) reads x at index minus shift, outside positions taking the nearest element or the mirrored continuation; backward is the transpose map.", "quantifier": "every shape of at least one axis, all axes lists (negative included), all shifts, both border modes, all data", "why_tests_cant": "Recursive loops over any number of axes and unbounded shifts.", "anchors": ["src/nbla/function/generic/flip.cpp:Flip::flip_recursive", "src/nbla/function/generic/shift.cpp:Shift::shift_recursive"]}
{"id": "C76", "title": "pad places the input and fills by the mode's rule; gradient is the derivative", "statement": "pad(x, pad_width, mode) returns extent n+before+after per axis; the element at j is x at (j - before) where inside, otherwise the constant ('constant'), the nearest edge ('repeat') or the position on the back-and-forth line ('reflect'), per axis; backward is the derivative with respect to x.", "quantifier": "every shape, every list of widths on the last axes, three modes, arbitrarily large reflect widths, all data", "why_tests_cant": "Leading axes are folded depending on how many are padded, and reflection wraps any number of times.", "anchors": ["src/nbla/function/generic/pad.cpp:Pad::setup_impl", "src/nbla/function/generic/pad.cpp:reflect_index", "src/nbla/function/generic/pad.cpp:Pad::backward_impl"]}
{"id": "C77", "title": "tile repeats the array, and its gradient sums over the copies", "statement": "tile(x, reps) aligns shape and reps at the last axis; the element at j is x at j mod x.shape; backward is the transpose; repetitions below one are rejected.", "quantifier": "every shape and repetitions list (either may be longer), all data, any previous content of the index map", "why_tests_cant": "The index map is built by unfolding memcpys axis by axis; correctness is an induction over axes.", "anchors": ["src/nbla/function/generic/tile.cpp:Tile::setup_impl", "include/nbla/utils/nd_index.hpp:multiply"]}
{"id": "C78", "title": "gather and gather_nd select the indexed elements and transpose that selection in backward", "statement": "gather(x, indices, axis, batch_dims): element (b,d,i,e) is x[b,d,indices[b,i],e]. gather_nd(x, indices): element (k,t) is x[p,t] with p the k-th column of indices, negative entries counting from the end. Backward is the transpose (repeated indices add up, accumulation adds). An index out of range is an error, not an access outside of the array.", "quantifier": "all shapes, axes, batch dimensions, index contents and data", "why_tests_cant": "Folded shapes and strides must agree for every rank and split into batch, leading, indexed and trailing axes.", "anchors": ["src/nbla/function/generic/gather.cpp:Gather", "src/nbla/function/generic/gather_nd.cpp:GatherNd"]}
{"id": "C79", "title": "scatter_nd and scatter_add put values where the indices say, with the matching gradient", "statement": "scatter_nd writes (or with add sums) data[k,t] at the position column k of indices denotes, over zeros or over `out`; scatter_add adds x1[i] at i with coordinate axis replaced by indices[i] to a copy of x0; the gradients are the transposes; out-of-range indices are errors.", "quantifier": "all shapes, index contents, data, add flags, accumulate flags", "why_tests_cant": "Repeated indices, negative indices and shapes that leave parts untouched interact; the adjoint identity must hold for every combination.", "anchors": ["src/nbla/function/generic/scatter_nd.cpp:ScatterNd", "src/nbla/function/generic/scatter_add.cpp:ScatterAdd"]}
{"id": "C80", "title": "embed, one_hot and where look up, encode and select elementwise", "statement": "embed: y[i,j] = w[x[i],j], gradient of w the transpose. one_hot: row n has a single one at the position its entries denote (negative entries wrap), or is all zero if one of them is out of range. where: c[i] selects between t[i,j] and f[i,j], and the output gradient goes to the selected input only.", "quantifier": "all shapes, table sizes, index contents and data", "why_tests_cant": "Address arithmetic over any number of class axes; invalid entries anywhere in a row must blank exactly that row.", "anchors": ["src/nbla/function/generic/embed.cpp:Embed", "src/nbla/function/generic/one_hot.cpp:OneHot", "src/nbla/function/generic/where.cpp:Where"]}
{"id": "C81", "title": "Binary operations broadcast like NumPy and reduce the gradient accordingly", "statement": "add2, sub2, mul2, div2, pow2, maximum2 ... accept exactly pairs of shapes of equal rank that are axiswise equal or 1; element j of the result is the operation applied to the broadcast elements of the two inputs; the gradient of an input is its old content (when accumulating) plus the sum of the gradient formula over all result positions that use the element.", "quantifier": "all pairs of shapes, all data, both inputs, both accumulate flags, every elementwise operation", "why_tests_cant": "The implementation merges runs of axes into compressed axes depending on neighbouring extents; a wrong merge shows only for particular rank/extent patterns.", "anchors": ["include/nbla/function/utils/base_transform_binary.hpp:BaseTransformBinary::setup_impl", "include/nbla/function/utils/base_transform_binary.hpp:transform_binary", "include/nbla/function/utils/base_transform_binary.hpp:transform_binary_grad0"]}
{"id": "C82", "title": "Gradient formulas of elementwise functions are the derivatives, and backward is the vector-Jacobian product", "statement": "For every elementwise function of one input (abs, exp, log, sigmoid, tanh, ELU, SELU, ReLU, LeakyReLU, ReLU6, GELU, Swish, Mish, SoftPlus, SoftSign, LogSigmoid, TanhShrink, Sinc, Erf, hard variants, trigonometric and hyperbolic functions and their inverses, scalar operations) and every binary operation with broadcasting (add, sub, mul, div, pow, maximum, minimum, atan2), the gradient written by backward is the vector-Jacobian product of forward wherever the function is smooth, one of the one-sided slopes at the kinks; it is added to the old gradient when accumulating; and it reads input or output data only if the function declares so. Backward through a chain gives the gradient of the composition. (Round, ceil, floor, sign and the binary activations are straight-through by design and excluded.)", "quantifier": "all array sizes, shapes, real inputs, output gradients and parameters", "why_tests_cant": "Numerical gradient checks sample points and tolerances; the identity and the data-dependence declarations must hold for all real inputs, including both sides of every branch.", "anchors": ["include/nbla/function/utils/base_transform_unary.hpp:TransformUnary", "include/nbla/function/utils/base_transform_binary.hpp:TransformBinary", "include/nbla/function/gelu.hpp", "include/nbla/function/mish.hpp", "src/nbla/function/generic/relu.cpp", "src/nbla/function/generic/leaky_relu.cpp", "src/nbla/function/generic/selu.cpp"]}
{"id": "C83", "title": "Softmax family: values, probabilities, numerical safety, gradients", "statement": "softmax along an axis (counted from either end) computes exp(x_i)/sum_k exp(x_k) in each slice, the results are positive and sum to one; log_softmax is its logarithm; no exponential of a positive number is formed and the divisor is at least one; softmax_cross_entropy is minus log softmax of the label (zero for negative labels), categorical_cross_entropy minus the logarithm of the label's probability; backward of each is the vector-Jacobian product, added to the old gradient when accumulating. Refuted parts: labels at or above the number of classes are not rejected (the loss of another sample is returned); below the clipping threshold categorical_cross_entropy is constant but its gradient is -dy/threshold.", "quantifier": "all shapes, axes, real inputs, labels, output gradients", "why_tests_cant": "Sizes, axes, labels and values are unbounded; numeric gradient checks sample points.", "anchors": ["src/nbla/function/generic/softmax.cpp", "src/nbla/function/generic/log_softmax.cpp", "src/nbla/function/generic/softmax_cross_entropy.cpp", "src/nbla/function/generic/categorical_cross_entropy.cpp"]}
{"id": "C84", "title": "Losses compute their formulas and their gradients are derivatives", "statement": "squared_error, absolute_error, huber_loss, epsilon_insensitive_loss (with broadcasting), sigmoid_cross_entropy, binary_cross_entropy and kl_multinomial compute the documented values; their backward is the vector-Jacobian product with respect to each differentiable input wherever the loss is smooth (Huber: everywhere). top_n_error is 1 exactly when more than N classes score at least as high as the label, binary_error exactly when the two numbers lie on different sides of one half. Refuted parts: epsilon_insensitive_loss with negative epsilon has a gradient of the wrong sign; clipped binary_cross_entropy is constant but has a non-zero gradient; kl_multinomial's gradients ignore its stabilising constant and never equal the derivative.", "quantifier": "all shapes, all real inputs and parameters, all output gradients", "why_tests_cant": "Numerical checks with tolerance 1e-2 cannot see the kl_multinomial defect, nor cover both sides of every branch for all parameters.", "anchors": ["include/nbla/function/squared_error.hpp", "include/nbla/function/absolute_error.hpp", "include/nbla/function/huber_loss.hpp", "include/nbla/function/epsilon_insensitive_loss.hpp", "src/nbla/function/generic/sigmoid_cross_entropy.cpp", "src/nbla/function/generic/binary_cross_entropy.cpp", "src/nbla/function/generic/kl_multinomial.cpp", "src/nbla/function/generic/top_n_error.cpp", "src/nbla/function/generic/binary_error.cpp"]}
{"id": "C85", "title": "Reductions over axes compute the reduction and its gradient", "statement": "sum, mean, prod, max and min over a set of axes return an array whose shape drops the reduced axes (or has 1 there with keep_dims), each element being the reduction of exactly the input elements that agree with it on the other axes; with_index gives the first greatest (least) element; re-setup for another shape gives what a fresh function would give whenever the transpose need is unchanged. Backward of each is the vector-Jacobian product where the reduction is smooth, added to the old gradient when accumulating. Refuted parts: axes mixing both signs are sorted before being refined and setup produces an invalid permutation; an empty axes tuple reduces nothing; a transpose kept from an earlier shape makes forward fail; values beyond 1e8 in magnitude are ignored by max and min; prod's gradient is 0 at the only zero of a group although the derivative is not.", "quantifier": "all shapes, axes sets, real inputs, output gradients, previous buffer contents", "why_tests_cant": "Finite shape lists cannot cover every axes subset and value range; the failures need particular axes signs, shape histories or magnitudes.", "anchors": ["include/nbla/function/sum.hpp", "src/nbla/function/generic/sum.cpp", "src/nbla/function/generic/mean.cpp", "src/nbla/function/generic/prod.cpp", "src/nbla/function/generic/max.cpp", "src/nbla/function/generic/min.cpp"]}
{"id": "C86", "title": "Recomputation gives backward the data forward computed", "statement": "When variables carry the recompute flag (nn.recompute / recompute=True) and forward has cleared their data (and, with clear_no_need_grad, other data no gradient needs), backward recomputes what it needs: every backward function finds, for each gradient it has to compute, exactly the data that forward computed; no function is recomputed more than once in a backward pass, no recomputation reads cleared data, and nothing is raised. Refuted parts: an output outside a recompute scope that its own function's gradient needs (sigmoid, tanh, softmax) is cleared while a consumer inside the scope is recomputed and the gradient is then computed from cleared data; a random function outside the scope whose output was cleared by clear_no_need_grad makes backward raise.", "quantifier": "all acyclic graphs without in-place functions, all recompute flags, dependency declarations, kernels, clearing choices", "why_tests_cant": "Which data is cleared and recomputed depends on the whole graph, the flags and the order of backward; tests cover a handful of graphs.", "anchors": ["src/nbla/computation_graph/variable.cpp: visit_function_backward, visit_function_recursive, need_recompute_input, need_recompute_output, ForwardCallback", "src/nbla/function.cpp: Function::recompute, setup_recompute", "python/src/nnabla/__init__.py: recompute"]}
{"id": "C87", "title": "Affine and batch_matmul compute matrix products and their gradients", "statement": "affine(x, w, b, base_axis) accepts exactly data of shape A ++ B, weights of shape [size of B] ++ C and a bias of shape C, and returns the array of shape A ++ C whose elements are the sums over B of x times w plus the bias; batch_matmul(a, b, transpose_a, transpose_b) accepts exactly operands of at least 3 dimensions with broadcastable batch axes and equal inner sizes, and returns the product of the (possibly transposed, broadcast) matrices. Backward of each is the vector-Jacobian product in every operand, written without touching anything else, and added to the old gradient when accumulating. Refuted part: affine on data with no element in B (an inner product over an empty axis, which should give the bias) divides by zero in setup.", "quantifier": "all shapes, axes, transpose flags, real inputs, output gradients, previous buffer contents, accumulation flags", "why_tests_cant": "Row/column offsets and broadcast batch indices must be right for every shape; finite-difference tests check a few small ones at sample points.", "anchors": ["src/nbla/function/generic/affine.cpp", "src/nbla/function/generic/batch_matmul.cpp", "include/nbla/function/affine.hpp"]}
{"id": "C88", "title": "Convolution computes the convolution and its gradients", "statement": "convolution(x, w, b, base_axis, pad, stride, dilation, group) in any number of spatial dimensions accepts exactly data A ++ [chI] ++ I and weights [chO, chI/group] ++ K with matching numbers of pads, strides and dilations, channels divisible by the group, bias [chO] and positive output extents; element (a, j, pos) of the result is the sum over the channels of j's group and all kernel elements of the weight times the data element it sees with the window at pos (0 in the padding) plus the bias. Output extents count the positions at which the dilated kernel fits. Backward is the vector-Jacobian product in data, weights and bias for every combination of requested gradients and accumulation flags, and touches nothing else. Refuted part: a kernel larger than the padded axis is accepted when the stride is larger than the excess, producing an output position at which the kernel does not fit.", "quantifier": "all batch shapes, spatial ranks, extents, kernels, pads, strides, dilations, groups, real inputs and gradients, previous contents of gradient and work buffers, flag combinations", "why_tests_cant": "im2col/col2im index arithmetic with arbitrary rank, padding, stride, dilation and groups has infinitely many configurations; numerical gradient tests check a few.", "anchors": ["src/nbla/function/generic/convolution.cpp", "src/nbla/utils/unfold_to_patches.cpp", "src/nbla/utils/fold_from_patches.cpp"]}
{"id": "C89", "title": "Deconvolution computes the transposed convolution and its gradients", "statement": "deconvolution(x, w, b, base_axis, pad, stride, dilation, group, output_padding) returns the array of extents stride*(o-1) + dilated kernel - 2 pad + output padding whose element (a, ch, q) is the sum over kernel elements and window positions seeing q, and over the data channels of ch's group, of data times weight, plus the bias: the transpose of convolution with the same parameters. Backward is the vector-Jacobian product in data, weights and bias for every combination of requested gradients and accumulation flags, and touches nothing else. Refuted parts: the data's channel count is never compared with the weights (too few channels read beyond the data); a negative output padding is accepted although the fold then runs over fewer positions than the data has.", "quantifier": "all batch shapes, spatial ranks, extents, kernels, pads, strides, dilations, groups, output paddings, real inputs and gradients, previous buffer contents, flag combinations", "why_tests_cant": "As for convolution; the unchecked channel count only shows for shapes tests do not use.", "anchors": ["src/nbla/function/generic/deconvolution.cpp", "src/nbla/utils/unfold_to_patches.cpp", "src/nbla/utils/fold_from_patches.cpp"]}
{"id": "C90", "title": "Max, average and sum pooling see exactly the window and differentiate correctly", "statement": "max_pooling, average_pooling and sum_pooling (2 or 3 spatial axes, any kernel, stride, non-negative pad, ignore_border) give at every batch position and output position the maximum (the first in row-major order on ties), the average (over the cells in the data, or with including_pad over the cells of the padded axes) and the sum of exactly the data elements i with pos*stride <= i+pad < pos*stride+kernel. The output extents are the number of positions at which the kernel fits the padded axis (ignore_border) or at which the window starts before the end of the data. Backward is the vector-Jacobian product (for max pooling where every window has a strict maximum), adds under accumulation and touches nothing else. Refuted part: a pad as large as the kernel is accepted; then a window may lie in the padding only, and max pooling returns a data element outside the window, or even reads outside the array; average pooling divides by zero there.", "quantifier": "all shapes, kernels, strides, non-negative pads, border modes, real inputs and gradients, previous contents of the gradient buffer", "why_tests_cant": "The boundary arithmetic (clipping, borders, padding, ties) has infinitely many configurations; tests compare a few with a reference.", "anchors": ["include/nbla/function/utils/base_pooling.hpp", "src/nbla/function/utils/base_pooling.cpp", "src/nbla/function/generic/max_pooling.cpp", "src/nbla/function/generic/average_pooling.cpp", "src/nbla/function/generic/sum_pooling.cpp"]}
{"id": "C91", "title": "An operation only runs with the shapes it was set up for", "statement": "In every history of setup, forward, backward and reshapes of variables on a function object: the implementation of forward or backward is run only when the shapes of all inputs and outputs, and the members, are exactly those left by the last setup of that implementation; a changed input shape triggers a new setup, a changed output shape or number of variables an error, unchanged shapes neither. The array class used is the context's if allowed, else the first allowed. Before backward, gradients of inputs requested without accumulation are zero and all others untouched. Refuted parts: after a setup that threw, restoring the old shapes runs the implementation with the members the failed setup left; a re-setup during forward that switches to a fall-back (add2 with inputs that now broadcast) still runs the original implementation, out of bounds.", "quantifier": "all implementations (setup behaviour, failures, fall-back chains), all histories of calls with any variables, aliased or not", "why_tests_cant": "Histories of setups, shape changes and failures are unbounded; tests set up once and run.", "anchors": ["src/nbla/function.cpp", "src/nbla/function/generic/add2.cpp", "include/nbla/function.hpp"]}
{"id": "C92", "title": "sort orders every slice and its gradient follows the permutation", "statement": "sort(x, axis, reverse, with_index/only_index) returns, along the axis of every slice, the elements in ascending (reverse: descending) order; the index output is a permutation of 0..n-1 and the values are the input at the index; nothing else is written. Backward is the vector-Jacobian product where there are no ties. Refuted part: backward gathers the output gradient at the permutation instead of scattering it, so the gradient is wrong whenever the sorting permutation is not its own inverse (for example 2, 3, 1).", "quantifier": "all shapes, axes (also negative), both directions, all real inputs and gradients, every std::sort meeting the C++ specification", "why_tests_cant": "Order and gradient depend on the whole permutation; the repository's test recomputes the gradient with the same wrong formula.", "anchors": ["src/nbla/function/generic/sort.cpp"]}
{"id": "C93", "title": "top_k_data and top_k_grad select exactly the k best elements of each sample", "statement": "top_k_data(x, k, abs, reduce, base_axis, largest, with_index) lists per sample k distinct elements, best first, such that no element left out is better (larger, smaller, or by magnitude); with reduce the output is exactly these elements in that order, without it they stay in place and everything else is 0. Setup accepts exactly 1 <= k <= sample size (and with_index only with reduce and two outputs). Backward is the vector-Jacobian product where selected elements have no ties (reduce); top_k_grad is the identity forward and passes exactly the k best elements of the gradient backward. Refuted part: without reduce, backward passes the whole output gradient, also to inputs whose output is constantly 0.", "quantifier": "all shapes, k, axes, flags, real inputs (also with ties), previous buffers, every implementation of the standard heap operations", "why_tests_cant": "Selection depends on the whole sample and on the heap's history; ties and permutations are unbounded.", "anchors": ["include/nbla/utils/top_k.hpp", "src/nbla/function/generic/top_k_data.cpp", "src/nbla/function/generic/top_k_grad.cpp"]}
{"id": "C94", "title": "searchsorted returns the insertion point", "statement": "searchsorted(sorted_sequence, values, right) returns, for each value, the number of elements of its row's sequence that are less than it (right: at most it); so inserting there keeps the row sorted. It accepts exactly arrays that agree on all axes but the last, with a non-empty sequence, and the output has the shape of the values.", "quantifier": "all shapes, all sorted rows of real numbers with ties, all values, both sides", "why_tests_cant": "A binary search has infinitely many range/tie configurations.", "anchors": ["src/nbla/function/generic/searchsorted.cpp"]}
{"id": "C95", "title": "fixed_point_quantize and pow2_quantize round to the nearest representable value", "statement": "fixed_point_quantize(x, sign, n, delta) returns for every element an integer multiple k*delta with |k| <= 2^b - 1 (b = n-1 with sign, n without; k >= 0 without sign), and no other such multiple is nearer; applying it twice changes nothing more; backward is the straight-through estimator (masked to the range if ste_fine_grained), adding under accumulation. pow2_quantize returns plus or minus the power of two in range whose exponent is nearest to log2|x|; values below the pruning threshold become 0 with with_zero; negative values become the smallest value when unsigned; its gradient is passed through, with ste_fine_grained zeroed above the largest quantization threshold and at negative inputs if unsigned. Setup succeeds exactly when delta > 0 and at least one bit remains besides sign and zero.", "quantifier": "all bit widths (up to 31 bits, where the int conversions of the code do not overflow), steps, signs, all real inputs and gradients", "why_tests_cant": "Ties, clipping and rounding boundaries form a continuum; tests compare a few random arrays.", "anchors": ["src/nbla/function/generic/fixed_point_quantize.cpp", "src/nbla/function/generic/pow2_quantize.cpp"]}
{"id": "C96", "title": "quantize_linear saturates rounded values and dequantize_linear undoes it up to half a step", "statement": "quantize_linear(x, scale, zero_point, round_mode, narrow_range, dtype) returns clip(round(x/scale) + clip(round(zero_point))), with broadcasting of scale and zero point, where round is to a nearest integer with ties away from zero or to even; every output is an integer in the type's range. dequantize_linear of the result with the same scale and zero point is within |scale|/2 of x wherever nothing was clipped. The zero point input is overwritten with its rounded and clipped value, and running forward again changes nothing. Backward gives dy/scale for x and an error for scale and zero point.", "quantifier": "all shapes broadcastable as the setup demands, all non-zero scales, zero points, real inputs, both rounding modes, BYTE/UBYTE, narrow or full range", "why_tests_cant": "Rounding ties and saturation boundaries for all scales and zero points cannot be enumerated.", "anchors": ["src/nbla/function/generic/quantize_linear.cpp", "src/nbla/function/generic/dequantize_linear.cpp"]}
{"id": "C97", "title": "min_max_quantize maps to the nearest level and represents zero exactly", "statement": "min_max_quantize: for every cell of the quantization range with integer levels ql_min < ql_max, the scale is the width of the range (at least eps) divided by the number of steps, the zero point is the integer level nearest to ql_min - qr_min/scale, and every element of x becomes the nearest of the values (q - zero_point)*scale with q an integer level; in particular 0 is mapped to 0 whatever the range.", "quantifier": "all shapes, ranges (also inverted or degenerate), integer levels, eps > 0, real inputs", "why_tests_cant": "The interplay of clipping, nudging and rounding holds for a continuum of ranges.", "anchors": ["src/nbla/function/generic/min_max_quantize.cpp"]}
{"id": "C98", "title": "prune zeroes exactly the smallest magnitudes up to the rate", "statement": "prune(x, rate) sets to 0 a set of elements whose magnitudes are strictly below all others', leaves the rest unchanged, prunes at most floor(rate*(size-1)) elements for rate < 1 (exactly that many if magnitudes differ) and everything for rate = 1; rates outside [0,1] are errors; backward passes the whole gradient.", "quantifier": "all non-empty arrays of reals including ties, all rates, every std::sort meeting its specification", "why_tests_cant": "Ties and the number pruned depend on the whole array.", "anchors": ["src/nbla/function/generic/prune.cpp"]}
{"id": "C99", "title": "The swap scheduler keeps device memory within the given limit", "statement": "When SwapInOutScheduler succeeds in building a schedule from a recorded iteration, then running that iteration under the schedule the device buffers of the recorded arrays never take more than the given number of bytes, at any moment (after every array access, every command and every function), and the internal consistency checks at the end of scheduling never fail: scheduling either succeeds or reports that a function does not fit.", "quantifier": "every recorded order of get, cast and clear accesses, every partition into functions, all array sizes, memory limits and prefetch limits", "why_tests_cant": "The bound must hold after every event of every possible recorded program; a test runs a few networks with a few limits and measures at few points.", "anchors": ["src/nbla/lms/swap_in_out_scheduler.cpp: schedule, schedule_swap_in, schedule_swap_out, reserve_unprefetched_memory, schedule_wait_for_swap_out_impl, cancel_swap_out", "include/nbla/lms/swap_in_out_scheduler.hpp"]}
