# Formal model of sony/nnabla in Lean 4

`/repo` (read as text, never executed) is modelled in `lean/Verif/<Area>/`:

* `Model.lean`  - definitions mirroring the code, each with a `/repo` file:line citation and its simplifications;
* `Spec.lean`   - the small specification the property is stated against (no model helpers) where one is needed;
* `Lemmas.lean` - helper lemmas;
* `Props.lean`  - the property theorems, their non-vacuity examples and refutation witnesses.

Theorem names start with the property id (`C07_...`). `MANIFEST.json` maps
properties to theorems. `seeded/LOG.jsonl` records mutation experiments.

## Trusted base

* Lean 4.33.0's kernel; axioms allowed: `propext`, `Classical.choice`, `Quot.sound`
  (checked per theorem by `vcheck`). No own axioms, no compiled-code tactics.
* The reading of the source: every model definition is hand-written; the cited lines are the only tie.
* Integers: Python ints are unbounded; C++ `Size_t`/`int` are modelled by unbounded `Nat`/`Int`
  unless a comment says otherwise (overflow is out of scope).
* Floating point: real/rational or abstract commutative (semi)ring values replace floats. Rounding is not modelled.
* Randomness: a stream of permutations/values is a universally quantified parameter.
* Devices, kernels, the OS, the file system, protobuf/HDF5 encoders: external, either a parameter
  or not modelled. Python dict/OrderedDict = insertion-ordered association list with distinct keys.
* Exceptions are values (`Except`/`Option`/an explicit outcome).

## Per-property plan

| id | model | proof |
|----|-------|-------|
| C01 | registry = insertion-ordered trie (dict of dict/Variable); get/set/pop/parameter_scope on component lists produced by a char-level `split('/')` | induction on the path, map laws |
| C02 | same | split/append lemma, induction |
| C03 | big-step interpreter of with-block programs with exceptions over (registry, current-scope path, no_grad flag) | induction on programs |
| C04 | `get_parameters` on the trie; "reachable" = produced by API operation sequences | mutual induction on trie; invariant (keys '/'-free, non-duplicate) over histories |
| C05 | heap of arrays + registry | case analysis and histories |
| C06 | interpreter of context_scope programs | induction on programs |
| C07,C08,C10,C11 | `DataIterator` as a state machine over a data-source interface; SimpleDataSource with a permutation stream | closed form of position/epoch by induction on samples |
| C09 | integer arithmetic of `get_slice_start_end` | `omega`/`Nat.div` lemmas |
| C12,C13,C14,C15 | DataSourceWithMemoryCache / SlicedDataSource / DataSourceWithFileCache / ConcatDataSource as state machines | invariants; refutations by `decide` |
| C16 | schedulers over an ordered field (rationals / reals) | algebra |
| C17 | MonitorSeries fold | ghost history invariant |
| C18,C19 | `_indexing.pyx` key preparation + `Slice::setup_impl` + recursive forward; spec: Python's `slice.indices` | arithmetic; refutation by `decide` |
| C20,C21 | `save_variable_buffer` greedy assignment; executor over shared and private storage | loop invariant; simulation |
| C22 | `_alloc` over byte lists | invariant over allocation sequence |
| C23-C26 | computation graph as functions/variables with ids; DFS forward, priority-set backward; executor with clear flags | DFS invariants; rank ordering; sum-over-consumers |
| C27,C28 | SyncedArray state machine (head, arrays, at_head, lazy zero/fill) with abstract convert | refinement to "last write" |
| C29,C30 | caching allocator with doubly linked blocks, caches (ordered), round_size | invariant over histories |
| C31,C32 | solver param/state maps, hook trace | map laws; refutations |
| C33 | strides, flat2nd, nd2flat | induction on shape |
| C34 | pack/pad sequences | induction |
| C35 | loss scaling loop | induction on overflow outcomes |
| C36 | `MTree` with object identities, heap of parameter scopes; get_parameters with memo, set_parameter(s), update_parameter | closed form of the listing (mutual induction on trees), injectivity of '@'-keys, assignment-list fold |
| C37 | (Params) see `Params/` | |
| C38 | (Data) see `Data/` | |
| C39 | time / image monitors | ghost history invariant |
| C40 | slice forward/backward pairs (`Index/`) | closed form of the recursive loops |
| C41 | whole NNB `execute` as a byte writer; independent pointer-following reader | writer extends memory; reader inverts |
| C42 | fixed-point conversion over rationals | rounding and clipping bounds |
| C43,C44 | same `visit` model (marks, closed list shared over forward_all) | same DFS invariant |
| C48 | kernels with an abstract pairing; tangents | double counting over the executed functions |
| C45 | `connect` as operations on graph + ranks | invariant over histories |
| C46 | per-variable reference table | invariant over histories |
| C27,C28 | `Synced/`: root and narrowed arrays as a tree of nodes with keyed arrays, lazy flags, blocks of memory | refinement to one buffer of windows; tree invariant; every call preserves it |
| C49 | same model, arrays without narrowing | step-wise computation of both counters |
| C29 | Alloc/Model.lean: memory.cpp (divide, try_merge, associate_consecutive), allocator.cpp, caching_allocator_with_buckets.cpp; blocks are (device chunk, offset, size) objects with prev/next pointers | a ghost list of blocks per chunk; every call keeps the layout invariant (tiling, links, class), then disjointness and immobility follow |
| C30 | same model plus pools, counters, device chunks and their return | invariant: free blocks = pool entries, no two neighbours free, used = live + cached = held; best fit from the lower_bound specification |
| C50 | Alloc/Model.lean naiveStep | closed form of the counter by induction; refutation by alloc, free |
| C51 | Solver registry + states, histories of all public calls with exceptions | invariants over histories; refutations for Sgd and reset=False |
| C52 | lazily stored decay rate, histories | fold over histories |
| C53,C57 | `forParams` loop with skip of uncomputed gradients | loop decomposition, permutation invariance |
| C54 | h5 datasets visited in any order with `startswith` filter; protobuf; reused C++ state | prefix reasoning on paths; refutations |
| C55-C62 | element rules of the solvers over ℝ (Rules.lean), clip, Lars, Lamb on lists | real analysis, invariants over `trajectory` |
| C63 | `lift` of element rules to solver classes; construct/set_parameters/train | simulation between `train` and `trajectory` |
| C64 | same buffers as C34; inner products over index lists | filter/mask sums |
| C65 | recursive `training` assignment over the tree | mutual induction |
| C66 | `__setattr__`/`__getattr__` over two dictionaries | case analysis |
| C67 | `float_bits` up/down conversion on bit patterns (Nat), value semantics in units of 2^-149 | field decomposition, normalisation-loop invariant |
| C68 | same | neighbour argument for nearest; exponent-wise bounds for monotonicity |
| C69 | unary minus through float, bitwise ==, limits | from C67; strict monotonicity of values |
| C70 | grad.py: Grad.__call__, both depth first searches, open set, grad_vars, accumulation (Verif/NNGrad/Model.lean); gradient-graph variables are represented by their values in a commutative monoid; registry lookup, persistent flags and argument checks left out | loop invariant (popped set, coverage of live functions, completeness of the pending gradients) against the adjoint equations `IsSens`; existence and uniqueness of their solution; refutations by evaluation |
| C71 | as C70 plus the backward model of C25 | both results satisfy the same equations on everything computed from the input |
| C72 | transpose.cpp setup (axis merging), the loops over merged axes, backward; Verif/Fn/Transpose.lean | the merged loops visit the pairs (perm k, k) for every multi-index; `Gathers` gives forward and transpose |
| C73 | broadcast.cpp strided index; Verif/Fn/Broadcast.lean | strided index = ravel of the broadcast index, `Gathers` |
| C74 | concatenate.cpp, stack.cpp, split.cpp; Verif/Fn/Chunk.lean | block copies = lists of pairs; position arithmetic for shape A ++ d :: B |
| C75 | flip.cpp, shift.cpp recursive loops; Verif/Fn/Separable.lean | nest of one loop per axis = product of index maps |
| C76 | pad.cpp setup (folding), three kernels, backward; Verif/Fn/Masked.lean, Pad.lean | per-axis index rule, folding lemma, partial gather (`GathersC`) |
| C77 | tile.cpp index-map construction; Verif/Fn/Tile.lean | invariant 'axes from a on are tiled' through the memcpy loops |
| C78 | gather.cpp, gather_nd.cpp loops with folded strides; Verif/Fn/Select.lean, SelectNd.lean | `Gathers` on the folded shapes, unfolded by ravel of appended shapes |
| C79 | scatter_nd.cpp, scatter_add.cpp; Verif/Fn/SelectNd.lean | the gather_nd pairs used in the other direction; transposes from dot_bwdAdd |
| C80 | embed.cpp, one_hot.cpp, where.cpp; Verif/Fn/Lookup.lean | `Gathers` for embed, induction over class axes and rows for one_hot, pointwise for where |
| C81 | base_transform_binary.hpp: shape check, axis compression, stride-0 broadcasting, forward and gradient loops (Fn/Binary.lean) | offset = structural sum over axes; merging adjacent axes preserves it; then Gathers |
| C82 | forward and gradient formulas of 40 unary and 8 binary elementwise functions, their whole-array kernels (Elem/Unary.lean, Elem/Vjp.lean), over ℝ | Mathlib derivatives formula by formula; IsVJP along differentiable paths, composable |
| C83 | setup and the loops of Softmax, LogSoftmax, SoftmaxCrossEntropy, CategoricalCrossEntropy (Elem/Slices.lean, Elem/Softmax.lean, Elem/CrossEntropy.lean), over ℝ | loop invariants per slice; IsVJP.slices lifts the per-slice derivative; refutations for unchecked labels and clipped probabilities |
| C84 | formulas and loops of nine loss functions (Elem/Loss.lean), over ℝ | derivative per formula (one-sided derivatives glued for Huber), lifted by binary_kernel_vjp / pair_vjp / kl_vjp; refutations with witnesses |
| C85 | Sum::setup/forward/backward with transpose and the row loops of Sum, Mean, Prod, Max, Min (Elem/Reduce.lean, Elem/ReduceProps.lean), over ℝ | closed form of the axes loop; the transposed array is the (result × reduced) matrix (C72); row derivatives chained with the transpose adjoint (C82_chain) |
| C47 | check_data_inplace / verify_during_forward, array sharing by in-place functions, execution in order (Inplace/Model.lean) | invariant: a modifiable, unused variable shares its array only with variables already taken over by their only user; induction over the execution (Inplace/Props.lean) |
| C86 | Verif/Recompute: the as_recomputation paths of variable.cpp on top of the Graph model (one callback object for the pass, data as Option) | invariant over the recomputed functions: missing data was either cleared before backward and not yet recomputed, or all its uses have been recomputed and none needs it, or it belongs to a function already dealt with; composed with C26 and C24 |
| C87 | Affine and BatchMatmul: setup, forward, backward (Elem/{Bilinear,Affine,BatchMatmul,BatchMatmulProps}.lean) over ℝ, matrices as flat buffers; broadcast from Fn | setup by case analysis into an iff; forward/backward of trilinear forms: dot(dy, F(x,w)) = Σ dy·x·w gives all adjoints at once; disjoint writes per batch |
| C88 | unfold_to_patches, fold_from_patches (Elem/Patches.lean), Convolution setup/forward/backward (Elem/Conv*.lean) over ℝ | kernels of any rank by induction on the axes; sample loops as disjoint block writes or additions; all gradients from one trilinear form |
| C89 | Deconvolution setup/forward/backward (Elem/Conv*.lean) over ℝ, sharing the patches model | the same trilinear form with data and output exchanged; setup extents invert the window count |
| C90 | BasePooling setup, Max/Average/SumPooling forward/backward for any number of axes (Elem/Pooling.lean) over ℝ | visited cells = filtered row-major window by induction on the axes; sums by adjointness; max by eventual constancy of the strict argmax |
| C91 | Function::setup, check_shapes, forward/backward wrapper, fall-back chain (Func/Wrapper.lean) | state machine over arbitrary implementations; invariant: innermost object agrees with the last setup_impl event of the log |
| C92 | Sort setup/forward/backward (Elem/Sort.lean) over ℝ, std::sort a parameter with the standard's specification | slice loops; uniqueness of the index of a strict order, eventual constancy for the gradient; refuted by 2,3,1 |
| C94 | SearchSorted setup and recursive search (Elem/SearchSorted.lean) | induction on fuel: the result splits the sorted range; count by filter |
| C93 | top_k/top_k_abs heap loop, TopKData setup/forward/backward, TopKGrad backward (Elem/TopK.lean), std heap operations as parameters with the standard's specification | loop invariant on the heap; uniqueness of a strict selection and eventual constancy for the gradient; refuted by 1,2 with k=1 |
| C95 | FixedPointQuantize setup/forward/backward, Pow2Quantize setup/forward (Elem/Quantize.lean) | std::round as nearest integer; nearest grid point by cases; logarithm for powers of two |
| C96 | QuantizeLinear/DequantizeLinear with broadcasting (Elem/Quantize.lean, Quantize2.lean) | composition of the binary loops of C81, rounding lemmas |
| C97 | MinMaxQuantize forward (Elem/Quantize3.lean) | nearest grid point by cases; broadcast from C73 |
| C98 | Prune setup/forward/backward (Elem/Quantize3.lean), std::sort a parameter | counting below the threshold in the sorted list |
| C99 | Lms/Model: schedule() of the swap scheduler function by function; Lms/Spec: device memory during the iteration | invariant of the planner (counts, states, byte counters) and simulation of the execution, prefix by prefix |
| C100 | Lms/Model scheduleLoop | the sum of the prefetch stoppers strictly increases and is bounded |
| C101 | Lms/Trace: tracer and commands | induction over events; clear_info names only records whose next access is a clear |
| C102 | Lms/Trace | induction over iterations; refutation by a witness |
| C103 | LossScale/Model: update() with its bounded recursion; solver, gradients, all_reduce and the inf test are parameters | induction on the number of failed attempts |
| C104 | LossScale/Model | induction on the number of updates, closed form; refutation N = 1 |
| C105 | batch_normalization.cpp forward_impl_batch/forward_impl_global/recompute_impl as loops over flat arrays of reals | per channel fold = mean/variance; running statistics by induction on the history |
| C106 | backward_impl_batch/backward_impl_global | derivative of the weighted outputs along every differentiable path (HasDerivAt), matched with the buffers written |
| C107 | FunctionModifier.__call__/GraphConverter.convert as a table machine over a graph in visiting order; converted variables as terms | invariant: table slots hold converted outputs exactly for the visited producers; values by an arbitrary relation Good |
| C108 | BatchNormalizationFoldingModifierInner on that machine, layers as linear gather-sums | same invariant; a folded layer stands for the batch normalization behind it; counterexamples |
| C109 | BatchNormalizationSelfFoldingModifier on that machine | same |
| C110 | folded parameters of Affine and of the opposite direction | algebra; counterexamples |
| C111 | `_get_unique_name`, names of inputs and outputs in `_proto_call` | induction over the requests with the counter dictionary as invariant; injectivity of decimal numbering; counterexamples |
| C112 | `from_proto`, `execute_on_proto`, stop flags | step function; invariant on evaluated/executed; induction on a rank for termination |
| C113 | `__call__`, `graph_call` as a fold over the forward sequence | values satisfy the network's equations; uniqueness of solutions |
| C114 | `from_proto`, `as_proto`, ports | exact description of the loaded network |
| C115 | `remove_function` | rewriting shown equal to a substitution; consistency and semantics; counterexamples |
| C116 | `rename_variable` | same; counterexamples |
| C117 | `variable_batch_size`, placeholder and argument resolution in calls | loop invariant for batch-first networks; counterexamples |
| C118 | `graph()` context manager and its two globals | interpreter compared with lexical scoping; counterexamples |
| C119 | CumSum loops over slices with the running element of y / running sum (Elem/Cum) | loop invariant, sum over the set of positions, transposition of the double sum |
| C120 | CumProd forward, masked_cumprod loop with first_zero_pos, backward loop (Elem/Cum) | scan-state invariants, case split on the first zero, derivative of finite products |
| C121 | bool_indexing kernels, bool_fill with Broadcast (Select/Bool) | rank of a selected position, loop invariants, transposes; refutations for the empty mask and the merged shape |
| C122 | nonzero.cpp forward as two loops over memory (Verif.Select.Unique) | loop invariant on the number of non-zeros seen; flat2nd/ravel bijection of C33 |
| C123 | unique.cpp: sort, run-length loop, create_outputs, y copies (Verif.Select.Unique) | loop invariant over the stably sorted indices; sorts specified, not implemented; empty input refuted |
| C124 | nms_detection2d.cpp both modes on memory, thread schedules as permutations (Verif.Detect) | independent-tasks lemma for the parallel loops; greedy loop invariant; order-free specification; witness of three boxes refutes the documented pairwise rule per class |
| C125 | confusion_matrix.cpp setup and forward (Verif.Detect) | loop of increments = sum of indicators; first-argmax invariant; out-of-range label refuted |
| C126 | Storage objects and the four levels of python_user_reference_counts, all re-links and destructors, auto-forward clearing | invariant 'each counter is the sum of the counters one level up' with offsets, then double counting |
| C127 | same model: reshape, view, narrow, set_data, set_grad | invariant on sizes, frame lemmas; witnesses for the refuted part |
| C128 | registries as lists, traces of calls around functions and parameters, with raising calls | induction on the history with a position-based specification of registrations in force; trace decomposition |
| C129 | the two per-thread maps | invariant over histories of requests |
| C130 | RandomShift: recursion over axes with shared pattern counter as a list of (y,x) offset pairs; draws from an arbitrary generator | closed form of the recursion by induction on the shape, GathersC/GradAffine; reflect witness |
| C131 | RandomCrop, RandomFlip on the same recursion | GradOK; involution of flips gives the transpose; sample-axis witness |
| C132 | pattern counter in force for each sample | injective for base_axis <= 1; two-axis sharing proved for every draw |
| C133 | RandomChoice over an ordered ring with an arbitrary uniform source | interval characterisation, loop invariant, progress measure |
| C134 | generator bookkeeping of random functions as a state machine | invariant over all histories |
| C135 | Dropout mask as hidden state | histories; GradOK of latest forward |
| C136 | RandomErase with rectangles given | loop invariants; inclusive-end witness |
| C137 | update rules of the element solvers (Solver/Rules.lean) run over lists of gradients | recursions solved by induction on the list (snoc); state = discounted sums / greatest elements (Solver/History.lean) |
| C138 | matrix_diag, matrix_diag_part (Mat/Diag.lean) | GathersC / Gathers over flat positions; loops unrolled by induction |
| C139 | trilu: mask, forward, backward (Mat/Trilu.lean) | triple loop flattened to a range; elementwise |
| C140 | meshgrid on top of Broadcast (Mat/Meshgrid.lean) | bc_gathers of C73 with the shapes set by the loop |
| C141 | Norm/Model: TensorNormalization setup/forward/backward with its batch-normalization adapter (transposition, inverse transposition by argsort, merged shape) over Fn/Transpose and BatchNorm/Model | Layout bijection (View/PView: elements share a BN channel iff they agree on the axes); forward spec by transport of sums, gradients by transport of C106 along the bijection |
| C142 | Norm/Affine, Norm/Layer: scale and bias by Mul2/Add2 (C81 kernels), layer_normalization setup/forward/backward over C141 | Composition of the gradients of C141 and C81 (`affine_norm_grad`) |
| C143 | Norm/Instance: instance_normalization with broadcast of the parameters | C141 with the parameters transported through Broadcast, accumulation by cases |
| C144 | Norm/Group: group_normalization as reshape of the channel axis into (group, member) followed by C141 and the affine part | Bijection of multi-indices under the split; refutation for batch axes after the channel axis |
| C145 | Norm/Group: weight_standardization | C141 with one batch axis |
| C146 | Native/ParamDir: heap of variables, directories (dictionary, key order) shared by handles (directory, scope path) | Invariant over reachable states; lookups after insertion; refutations by concrete histories |
| C147 | Native/ParamDirProps: parameter requests of the C++ parametric functions over C146 | Induction over the requests and later calls; refutation of fix_parameters |
| C148 | Native/Registry: FunctionDb::query, set_backend | First-match characterisation by induction |
| C149 | Norm/MeanSub: both modes, recompute, both backwards, training histories | Loop specifications, induction over batches, derivative of the training output; refutation for two samples |
| C150 | Expression graphs built by backward_function/*.py, with forward evaluation and reverse-mode execution | evaluation equals the C++ gradient formula (C82); reverse mode is sound for derivatives (HasDerivAt) |
| C151 | Graphs over broadcast tensors: binary transform kernels (C81), sum_for_arithmetics via the reduction kernel (C85) | values per position by induction on the graph, then the sum over the fibre |
| C152 | Lamb and Lars update_impl on whole arrays | induction on the history with the moving averages of C137 |
| C153 | Trainer/Updater/Evaluator as programs over arbitrary, possibly raising hooks | refinement of the nested loops to a flat list of calls; fold over the list for the parameters |
| C154 | The same with a disk and a crash after any number of calls | invariant: the checkpoint is the state after the epochs it counts; induction on crashes |
| C155 | state machine of tensors, capsules, arrays and NdArrays with explicit destruction steps (Verif/Dlpack) | invariant over all histories; refutations by witness histories |
| C156 | dtype tables, stride check, exported strides (Verif/Dlpack/Convert.lean) | case analysis over platforms, induction over shapes; refutations by witness |
| C157 | the weight, indicator and counter state of an INQ function over histories (Verif/Inq) | rounding lemmas on log2, loop induction, history induction; refutation by witness |
| C158 | element operations over Int/Nat with type bounds, broadcasting loop of C81 (Verif/IntOps) | integer division lemmas; witnesses for the traps and the conversion to double |
| C159 | allocator state machine (mapped cache, physical cache, waiting list, device lock), all device answers as arguments | invariant: each physical memory and each memory object counted at most once over all holders |
| C160 | same | case analysis of alloc_impl with the size invariant |
| C161 | counters | counting invariant under no failure; refutations by concrete histories |
| C162 | Stft/Model: create_window, coefficient loops, composition of Pad and Convolution models | DFT formula from C76_pad and C88_conv specialised to one channel |
| C163 | Stft/Model: inverse coefficients, overlap-add by Deconvolution, inv_window, NOLA check, Slice | orthogonality of cosines (roots of unity), one-sided folding for even sizes; refuted for odd sizes and default pad_mode |
| C164 | Stft/Grad: STFT::backward_impl, ISTFT with as_stft_backward | inner-product (adjoint) argument on the trilinear form of convolution; shape witness |
| C165 | Act/Unpool: unpooling.cpp | counting loop = strided map; separable gather (Verif.Fn.Separable), adjoint |
| C166 | Act/PRelu: prelu.cpp | loop invariants, flat index arithmetic, derivative of both arguments |
| C167 | Act/Doubled: crelu.cpp, celu.cpp | disjoint writes of the two halves, derivative per half |
| C170 | NormFn/Norm: norm.cpp, imperative.cpp execute/backward | chain rule for VJP kernels (NormFn/Chain), derivative of the p-th power of the absolute value |
| C171 | NormFn/NormNorm: norm_normalization.cpp | chain rule with shared input; concrete refutation with the out-of-bounds bit |
| C168 | NormFn/ClipGrad: clip_grad_by_value.cpp, clip_grad_by_norm.cpp | fold lemmas; chain of modelled kernels; refutation by witness |
| C169 | NormFn/Gap: global_average_pooling.cpp | adjoint of nested loops; refutation for five axes |
| C172 | NormFn/WeightNorm: weight_normalization.cpp | chain rule over the seven kernels, two inputs |
| C173 | Singleton/Manager: singleton_manager.cpp, -internal.hpp | invariant over all reachable states, fresh addresses as oracle |
| C174 | Singleton/Ones: NNabla::ones, zeros | invariant over histories; refutation by witness for every size |
| C175 | Dot/Dot: numpy_compat_functions.py dot on top of affine, transpose, sum, mul2 | composition of proved kernel theorems; refutations by witness |
| C176 | add_n.cpp, mul_n.cpp, active-input mask (NAry/NAry.lean) | value over Finset of inputs in use; path derivative of sums/products; witness at 0 |
| C177 | Function::setup/forward shape check + mask reset (NAry/NAry.lean) | induction over call sequence; witness reshaping |
| C178 | arange.cpp, counting loop as big-step relation (NAry/Create.lean) | Archimedean termination in ℝ; float32 witness of non-termination |
| C179 | linspace.cpp, eye_like.cpp (NAry/Create.lean) | closed forms; exact set of offsets written |
| C180 | batch_inv.cpp over MulScalar, BatchMatmul, Add2 models (Linalg/Batch.lean) | derivative of the inverse along a path from A·A⁻¹ = 1 (Linalg/Calc.lean), trace identity |
| C181 | batch_det.cpp over BatchInv, Mul2, Transpose, Add2 models | Jacobi's formula via Cramer; witness at singular matrices |
| C182 | batch_logdet.cpp chain det, abs, log | composition with C181 |
| C183 | Interpolate::setup_impl, all checks and the shape loop with its unsigned offset | case analysis on the number of spatial axes; witness for too few dimensions |
| C184 | the linear kernels 1-D/2-D/3-D literally, outer loop, forward_impl | each kernel equals a weighted gather over corners; induction on axes turns corners into hat weights; position lemmas; witness for half_pixel with one output |
| C185 | as C184 | weights are non-negative and add up to 1; integer positions select one sample |
| C186 | the nearest kernels literally | gather with one corner of weight 1; floor of the clamped coordinate; witness |
| C187 | the twelve backward kernels as lists of additions | transpose of a weighted gather; corB = cor inside the array |
| C188 | Python interpolate wrapper | slices of appended shapes, floor; witness |
| C189 | Verif/Cache/Model: chunk loop, _save_cache, index and order files, any schedule of the pool | Induction on the rows with the current chunk generalised |
| C190 | Verif/Cache/Model: transition system of caller and prefetch threads | Inductive invariant (what each prefetcher holds) and a decreasing measure; refuted for 0 threads |
| C191 | CreateCache composed with CacheDataSource (reset, _get_data) | Invariant over histories; permutation of positions |
| C192 | Verif/Warp: position arithmetic of warp_by_grid over ℝ (trunc, round, reflect with parity) | mirror images characterised by s = t + 2kT or 2L - t + 2kT; uniqueness and case analysis |
| C193 | the loop bodies of the four forward kernels, folded over all multi-indices | weights against the triangular kernel spec (interp1); puts_spec |
| C194 | the four backward_data kernels as lists of additions | weighted_grad1: forward is a weighted gather, backward the scatter with the same weights |
| C195 | the two backward_grid kernels with gradient coefficients | local affinity of each padding away from pixel centres; product rule; sites_vjp |
| C196 | setup_impl | case analysis; two witnesses for accepted ill-formed shapes |
| C197 | affine_grid target grid + BatchMatmul model | points_at, bmmT; witness for a single pixel (0/0 a parameter) |
| C198 | affine_grid backward | from C87_bmm_grad |
| C199 | composition of AffineGrid and WarpByGrid | C197 and position arithmetic |
| C200 | Verif/Solver/AdaBelief: one element of update_impl with all options | recursion solved over the whole history; three witnesses against the documentation |
| C201 | the rectification term | monotonicity of (r-4)(r-2)/r |
| C202 | WarpByFlow setup, clamp_to_index, forward | floor interpolation with clamped neighbours equals the sum against the hat function at the clamped position |
| C203 | WarpByFlow backward, image part | weighted gather / scatter transpose |
| C204 | WarpByFlow backward, flow part | pixel-wise derivative off the pixel centres, kink at them |
| C205 | PatchCorrelation setup, loops, forward | loops with strides are the index space of the output shape (truncating division), zero-padded sums |
| C206 | PatchCorrelation backward | weighted gather / scatter transpose for each input |
| C207 | loops against the size of the output | enumeration of the loops; counterexample with negative extents |
| C208 | RoiAlign setup, checks, sampling loops, forward | interpolation along an axis against the hat function, sums over the sampling grid; empty grids refuted |
| C209 | RoiAlign backward | weighted gather / scatter transpose |
| C210 | BroadcastTo setup and the fourteen cases of forward | each nest of copy loops enumerates a regrouped index space; concrete witnesses for what fails |
| C211 | nbla::execute over a heap of NdArrays and SyncedArrays; function classes as setup/forward/copy records | frame and binding lemmas by induction over the outputs; refuted for in-place Reshape |
| C212 | the same, object with used_ flag and members; histories of calls | invariant on the members; refuted for Reshape with inferred size |
| C213 | Reshape::setup_impl on integers | product of a filled list; exact characterisation |
| C214 | non_max_suppression_impl of the ONNX function, flags as a function, loops over the sorted list | induction over the sorted list; selection specified declaratively |
| C215 | calculate_iou over an ordered field | algebra |
| C216 | setup/forward as events | invariant over histories; refuted for changes after setup |
| C217 | preprocess_equation on lists of characters | round trip with a printer of equations; refuted for equations with spaces |
| C218 | compute_ellipsis_ndim | induction over the inputs; witness for an undescribed dimension |
| C219 | create_term, validate_input_shapes | positions; invariant of the running maximum, exact characterisation |
| C220 | the last transposition of create_einsum_graph (outAxes) | induction over the writes, disjointness of the positions; exact criterion for accesses inside; witnesses for the false part |
| C221 | VATNoise forward loops, refine_axis, strides()[base_axis-1] | loop invariants, real arithmetic; base axis 0 refuted |
| C222 | VATNoise backward with Function::backward's zeroing | loop invariant |
| C223 | FusedBatchNormalization around the inner batch normalization: in-place loops, relu_add2_backward | loop invariants, comparison with max(0, .) and its gradient; broadcast z refuted |
| C224 | AdaptiveSeparableConvolution setup and forward with flat buffers and strides | row-major decoding, loop invariants, injectivity of the written positions; narrow kernels refuted |
| C225 | AdaptiveSeparableConvolution: gradient of kv | coefficient identity (linearity), loop invariants over distinct positions; larger filters refuted |
| C226 | AdaptiveSeparableConvolution: gradient of x | scatter-add as a sum over all iterations, injectivity of positions; coefficient identity by exchanging sums |
| C227 | AdaptiveSeparableConvolution: gradient of kh | as C225 |
| C228 | the two axis lists of spectral_norm | list algebra for all dims |
| C229 | u and u_orig_ under forward, recompute, backward of any number of functions | invariant over all histories (u = step u_orig); shared u and test-mode backward refuted |
| C230 | BinaryWeightAffine: transpose, abs, sum, scale, sign, broadcast product; straight-through gradient | completing the square over finite sums; witnesses for the false parts |
| C231 | ONNXResize linear: coefficients, clamped neighbours, one output | case analysis on the floor of the position |
| C232 | ONNXResize cubic: coefficients, exclude_outside, neighbours, one output | polynomial identities; cancelling coefficients refuted |
| C233 | Resize/Nearest: get_nearest_index incl. std::round's ties away from zero, clamp, 1-d loop body | order-theoretic specification of nearest pixel with tie rule; floor/ceil bounds |
| C234 | Resize/Nearest: get_src_index, all six coordinate modes | algebra per mode; scale 1 with crop refuted by a witness |
| C235 | MaxPoolBwd/Model: max_pooling_2d_forward/backward loops over flat indices | fold invariant (first maximum), induction over the outputs, adjointness by exchange of sums |
| C236 | BinWeight/Connect: forward_impl, backward_impl over a state of data and gradients | case analysis over the flags |

## Where the code violates a property (recorded disagreements)

Each is proved as a refutation by a concrete witness, next to a `_partial` theorem for the part that holds:

* C08: batch size not dividing the data size.
* C11/C12/C13: None/StopIteration differences; memory cache repeats the first epoch's order and lags behind.
* C15: the same source object concatenated twice.
* C18: slice bounds outside the array are not clamped on three sides (`x[-10:3]`, `x[9:2:-1]`, `x[5:9:2]`,
  negative extents for `x[7:9]`); `x[None, 0]` on a 2-D array counts the None as an axis.
* C19: negative step with `stop=None` (the stored stop -1 is reinterpreted on the next setup).
* C31 (`reset=False` keeps the old variable), C32 (post hook before the update).
* C35: interval counting of dynamic loss scaling.
* C21: a network input used by no function is placed in buffer 0, on top of a live variable.
* C42: the fp_pos range check uses `or`; every position is accepted and stored modulo 16.
* C25: an output `b` of a multi-output function with `b.need_grad = False` that is consumed on the gradient path:
  the producer reads the stale content of `b.grad` (`backward_gradient_refuted`).
* C26: a masked input of add_n/mul_n can be cleared although it shares its array with a variable still to be read.
* C45: `forward` in the middle of building a graph makes ranks of old and new functions inconsistent; backward runs a
  function before its consumer, and twice.
* C46: `FunctionReferenceInfo::count` starts at 0, so a destroyed function leaves one reference behind.
* C27: clear() with a living narrowed array separates their memories; narrow three levels deep loses the grandparent's
  offset; destroying a narrowed array loses a zero/fill pending on it; a read in another dtype changes later reads of a
  lazily filled array; copy_from copies the head array without evaluating pending fills.
* C28: zeroing survives clear(). C49: modification_count never exceeds 1; a read resets clear_called.
- C50: NaiveAllocator adds to `device_memory_used_in_bytes` on every allocation and never subtracts (free_impl and free_unused_device_caches_impl do nothing), so the counter is the number of bytes ever allocated (`C50_naive_counter_refuted`).
- C31/C51: `set_parameters(reset=False)` keeps the old variable and, when the new one has another shape, creates a state of the new shape for the old variable (`noReset_breaks_sizes`).
- C51: Sgd's `remove_state_impl` is empty: removed parameters keep states, `set_parameters` (reset) does not restart counts; `t` wraps to 0 at 2^32-1 set by set_states (`tick_wraps`).
- C52: an update() that raises leaves the fused decay rate for the next update.
- C54: load_states matches datasets by string prefix ("w" also reads "w2"); set_states reuses one C++ state so array names leak from one key to the next.
- C55: a negative clip norm is accepted and reverses the gradient. C56: AMSBound's upper bound is `1/gamma*t` instead of `1/(gamma*t)`.
- C34: PadPackedSequence never uses padding_value; zero-length sequences are dropped (B is the largest batch size); `batch_sizes[t]` is uninitialised for t ≥ max(lengths); enforce_sorted=True is not checked; pack_sequence ignores batch_first.
- C36: a variable registered in two modules is listed once, so load_parameters/set_parameters replaces it in the first module only: the other keeps the old, unloaded variable. A parameter scope whose name starts with '@' is listed but taken for a child module by set_parameter.
- C66: `m.a = None; m.a = Sub()` still reads None; `m.a = Sub(); m.a = None` leaves Sub among the submodules, its parameters are still listed.
- C68: below 2^-14 `downconvert_to` shifts out low bits before rounding (a float just above a tie is rounded as a tie) and flushes everything below 2^-24 to zero, also what is nearer to 2^-24. C69: operator==(Half, Half) compares bits; numeric_limits<Half>::max() is 32768.
- C70 (nn.grad): `grad_vars[func] = ...` overwrites when two outputs have one parent; output parents are queued under the variable's rank (function rank + 1 before a forward) and inner functions under the function's rank, so a function queued twice raises KeyError; `_get_children` starts from one of several unlinked variables of a shared parameter, so paths through the other uses are pruned; repeated inputs; dy/dy = 0; `o * go` is differentiated with respect to `go` too.
- C71: nn.grad ignores need_grad=False of an inner output when its producer is reached through a sibling output.
- C72: Transpose::setup_impl copies `axes` before `refine_axes`, so the first setup with negative axes indexes the shape vector out of range.
- C74: Concatenate::setup_impl does not compare ranks; shapes (2,3) and (2,3,5) are accepted on axis 0 and forward writes out of bounds.
- C75: Shift 'reflect' takes an absolute value, which is wrong for shifts larger than twice the extent.
- C78: gather accepts batch_dims > axis in setup_impl and then computes `ysize0 / bsize = 0` and divides by it (`C78_refuted_batch_dims`).
- C79: scatter_nd without add and with repeated positions gives every column the gradient although only the last one reached the output; with `out` and add, only the first gets it; `out` itself never gets a gradient (`C79_refuted_*`). scatter_add's axis check is `axis <= ndim` with no lower bound.
- C80: embed never checks indices (`C80_refuted_embed_unchecked`); where with an empty condition divides by zero.
- C82: straight-through functions (Round, Ceil, Floor, Sign, BinaryTanh, BinarySigmoid) are not modelled: their gradient is not a derivative by design. GELU declares that its gradient reads the output although it does not (harmless).
- C83: exact reals; std::numeric_limits<T>::min() is a positive parameter; division by zero in setup (empty arrays) is an error in the model, undefined in C++.
- C84: exact reals; the constants numeric_limits<T>::min() and 1.0e-8 are positive parameters.
- Recompute: kernels are functions of their inputs (recompute_impl of random functions is assumed to replay the saved generator state); gradients, fallback functions and in-place functions are not part of this model; what backward clears is an arbitrary subset of the outputs of the functions it has dealt with.
- Lms: swap_in_out_scheduler.cpp is modelled for schedule() and everything it calls, the tracer's preclear check, and run(). Not modelled: the recorder, the first iteration (swap out everything), wrong_ordered swap outs, device_synchronize/host function detection, cast_prefetched abort, expired weak pointers, dtype conversion of the contents. size_t sums are assumed not to overflow; subtractions wrap as in C++.
- LossScale: mixed_precision_training.py in full, over the reals; an exception raised inside update() (which leaves _recursive_count non-zero) is not modelled.
- BatchNorm: axes.size() = 1 (generic kernels); the transposes for channel-last on GPU are not modelled. With one value per channel the running variance is 0/0.
- GraphConv: one pass of one modifier over a graph given in a topological visiting order (C23); function_references in any order; converted graphs are terms (sharing forgotten), passes compose because each keeps values. Not modelled: channel_first/last, fused/unfused, quantize and prune modifiers, RemoveFunctionModifier's special case for a variable named 'x', AddBiasModifier, weight shapes of grouped deconvolution. Batch normalization with batch_stat=True is folded too (no check in the code); the model has test mode only.
- GraphDef (graph_def.py, graph_optimizer.py, variable_batch_size.py): modelled are naming, from_proto/as_proto structure, traversal, call order and values, identity removal, renaming, batch-size export and call shapes, graph scopes. Not modelled: loop-control expansion, network passes (`promote`), initializers, executors other than renaming, parameter files, protobuf encoding.
- Elem/Cum*, Select/Bool*: cumsum.cpp, cumprod.cpp, bool_gather.cpp, bool_scatter.cpp, bool_fill.cpp, bool_indexing.hpp. Exact arithmetic; `int` offsets unbounded; the mask of bool_gather is assumed 0/1 as documented (its sum is the row count). A BoolFill object set up twice keeps a stale Broadcast: not modelled.
- Store: objects are numbers that are never reused; a destructor is a separate step possible when no modelled owner refers to the object; the narrow overlap check is left out (C27 models it), so more histories are covered than occur.
- Hooks: recomputation (which calls no hooks) and exceptions thrown by solver hooks (they would end the process in a destructor) are not modelled.
- Verif/Rand (C130-C136): random_shift/crop/flip/choice/erase, dropout and the recompute protocol of random functions. Not modelled: the quality of std::mt19937 and of the standard distributions (arbitrary functions of a generator state), float rounding of coordinates and weights, CUDA versions, empty inputs (division by zero in setup).
- Norm: `Variable`s created inside the function start as zeros; axes are natural numbers (callers refine negatives); propagate_down all true.
- Native: strings are character lists; initializers are functions of the shape; the iteration order of unordered_map (only in create_deep_copy) is insertion order; gradients of parameters are not modelled.
- Grad2: Python backward functions of elementwise and binary functions; not modelled: the backward functions of the remaining layers.
- Framework: experimental/framework/{trainer,updater,evaluator}.py and the default methods of worker.py; checkpoint writes are atomic.
- Dlpack: CPU arrays only, one SyncedArray per NdArray, dtypes are numbers; the values in memory and the GPU registries are not modelled.
- Inq: real-valued weights, exact log2; the matrix product that follows is not part of the model; std::sort order and random bits are inputs.
- Virtual-memory allocator (C159-C161): `VAlloc/Model.lean` models virtual_caching_allocator.cpp completely except printing; Memory::bind/unbind/grow of device backends are contracts, addresses and size_t overflow are not modelled.
- Verif/Stft: src/nbla/function/generic/{stft,istft}.cpp, include/nbla/function/utils/stft_istft.hpp (not modelled: ISTFT::backward_impl, as_istft_backward, rounding).
- Act: unpooling, PReLU, CReLU, CELU over exact reals (unpooling over any commutative semiring); kernels' recursive pointer loops as lists of accesses.
- NormFn: functions that call other functions' kernels; execute = setup + forward; temporaries start with arbitrary contents (structure Fresh).
- NAry: AddN/MulN/Arange/Linspace/EyeLike over exact reals; gradients of different inputs are different buffers; C178_arange_f32 uses an explicit float32 rounding of integers below 2^25.
- Linalg: Eigen's inverse() and determinant() are parameters with the contract Eigen.Exact (exact determinant; exact inverse of invertible matrices); temporaries start with arbitrary contents.
- Interpolate (Verif/Interp): positions and weights over the reals; `static_cast<int>` of a non-negative float is the floor; sizes natural numbers; OpenMP loop as sequential loop; the GPU implementation (which supports channel_last) is not modelled.
- Cache: .npy cache files of one process; not modelled: h5 format, communicator retries, normalisation of data, csv parsing.
- Warp (Verif/Warp): warp_by_grid and affine_grid over the reals; 0/0 is an arbitrary parameter; int conversions do not overflow; channel_last (refused by the kernels when they run) is refused in setup; strides of contiguous arrays.
- WarpFlow (Verif/WarpFlow): WarpByFlow over the reals; pointers written as positions; conversion of the floor to int does not overflow.
- PatchCorr (Verif/PatchCorr): PatchCorrelation over the reals; backward for x1 and x2 as two functions (distinct variables); int overflow not modelled.
- Roi (Verif/Roi): RoiAlign on the CPU over the reals; 0 * (1/0) is an arbitrary number; int conversions do not overflow; batch indices of all boxes checked first.
- BcastTo (Verif/BcastTo): BroadcastTo; reads behind the end of a shape vector give an arbitrary number.
- Imper (C211-C213): buffers hold abstract values; forward reads all inputs before it writes; forward does not fail; integer division by zero counted as an error; int does not overflow.
- OnnxNms (C214-C216): ordered field, no NaN; indices instead of pointer arithmetic; the reserve() for batch * classes * max_output_boxes rows is assumed to succeed.
- Einsum (C217-C219): ASCII strings; characters left behind by std::remove keep their values (unspecified by the standard); the graph built from the terms is not modelled.
- Einsum (C220): only the axes of the last transposition; unchecked vector accesses are explicit errors in the model; contraction itself is not modelled.
- Vat (C221-C223): exact arithmetic, flat buffers as functions with explicit sizes; inner batch normalization is a parameter; unchecked accesses are explicit errors.
- SepConv (C224): commutative semiring instead of float; reads outside of a buffer are explicit failures; the loops are run over the list of their iterations in order.
- SepConv (C225-C227): all three gradients are modelled; float rounding is not.
- Spectral (C228, C229): the power iterations are an arbitrary function; the inner graph is assumed to compute it from the content of u_; memory clearing inside the graph is not modelled.
- BinWeight (C230): exact reals, matrices as functions; composition of the internal functions at the level of their results.
- Resize (C231, C232): exact reals, one dimension; get_src_index (the coordinate modes) and the nearest mode are not modelled, the position is arbitrary.
- Resize (C233, C234): exact reals, one dimension; nearest mode and all coordinate modes are now modelled (the remark on C231/C232 refers to those theorems only); two- and three-dimensional loops are not.
- MaxPoolBwd (C235): two dimensions; no NaN, no rounding, no int overflow; dy has the pooled shape; the three-dimensional copies of the loops are not modelled.
- BinWeight (C236): exact reals, with bias; Affine by its documented result; no aliasing of the variables.
