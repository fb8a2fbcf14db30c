{
 "claims": [
  {
   "property": "C01",
   "status": "partial",
   "theorems": [
    "C01_set_parameter",
    "C01_get_parameter",
    "C01_pop_parameter",
    "C01_get_after_set",
    "C01_lookup_pure_partial",
    "C01_lookup_changes_none_refutation"
   ],
   "note": "All map laws proved; the stronger claim that a lookup changes no key's answer is refuted (a failed lookup creates scopes)."
  },
  {
   "property": "C02",
   "status": "proved",
   "theorems": [
    "C02_scope_slash",
    "C02_key_slash",
    "C02_create_slash",
    "C02_scope_meaning"
   ],
   "note": ""
  },
  {
   "property": "C03",
   "status": "proved",
   "theorems": [
    "C03_scope_restored"
   ],
   "note": "Heap model with aliasing and explicit scope dictionaries."
  },
  {
   "property": "C04",
   "status": "proved",
   "theorems": [
    "C04_get_parameters",
    "C04_registration_order"
   ],
   "note": ""
  },
  {
   "property": "C05",
   "status": "proved",
   "theorems": [
    "C05_existing",
    "C05_shape_mismatch",
    "C05_create",
    "C05_create_once"
   ],
   "note": ""
  },
  {
   "property": "C06",
   "status": "proved",
   "theorems": [
    "C06_stack_discipline",
    "C06_restored"
   ],
   "note": "Also covers auto_forward scopes. Refines an explicit-stack specification."
  },
  {
   "property": "C07",
   "status": "proved",
   "theorems": [
    "C07_unshuffled"
   ],
   "note": "n>=1, any B and k; includes callbacks."
  },
  {
   "property": "C08",
   "status": "partial",
   "theorems": [
    "C08_epoch_is_permutation_partial",
    "C08_closed_form",
    "C08_refutation"
   ],
   "note": "Proved when B divides n; closed form of the stream for every B; refuted by witness n=3,B=2 otherwise."
  },
  {
   "property": "C09",
   "status": "proved",
   "theorems": [
    "C09_cover",
    "C09_drop_last"
   ],
   "note": "size>=1, n>=1."
  },
  {
   "property": "C10",
   "status": "proved",
   "theorems": [
    "C10_stop_exhausted",
    "C10_stop_exhausted_unshuffled"
   ],
   "note": "use_thread=False; threaded behaviour after StopIteration is C11_blocks_after_stop."
  },
  {
   "property": "C100",
   "status": "proved",
   "theorems": [
    "Verif.Lms.c100_terminates"
   ],
   "note": "For every well-formed record (at least two function blocks, block ends monotone, last end = number of records)."
  },
  {
   "property": "C101",
   "status": "proved",
   "theorems": [
    "Verif.Lms.c101_any_program",
    "Verif.Lms.c101_recorded_order"
   ],
   "note": "Contents are abstract values; swap in, swap out and wait preserve them (no dtype conversion modelled)."
  },
  {
   "property": "C102",
   "status": "partial",
   "theorems": [
    "Verif.Lms.c102_iterations_partial",
    "Verif.Lms.c102_lost"
   ],
   "note": "Proved for iterations that follow the record; refuted in general: start_scheduling forgets the early clears (c102_lost)."
  },
  {
   "property": "C103",
   "status": "proved",
   "theorems": [
    "Verif.LossScale.c103_update",
    "Verif.LossScale.c103_cases",
    "Verif.LossScale.c103_history"
   ],
   "note": "Exact reals; overflow is an arbitrary predicate of parameters, batch and scale."
  },
  {
   "property": "C104",
   "status": "partial",
   "theorems": [
    "Verif.LossScale.c104_interval_partial",
    "Verif.LossScale.c104_not_every_N"
   ],
   "note": "Refuted as documented; the exact schedule (first raise in update N+2, then every N+1) is proved."
  },
  {
   "property": "C105",
   "status": "proved",
   "theorems": [
    "Verif.BatchNorm.c105_forward",
    "Verif.BatchNorm.c105_normalised",
    "Verif.BatchNorm.c105_running",
    "Verif.BatchNorm.c105_recompute",
    "Verif.BatchNorm.c105_history",
    "Verif.BatchNorm.ema_const",
    "Verif.BatchNorm.c105_global"
   ],
   "note": "Exact reals. With a single value per channel the running variance is 0/0 (NaN in C++), excluded by 2 <= n0*n2."
  },
  {
   "property": "C106",
   "status": "proved",
   "theorems": [
    "Verif.BatchNorm.c106_backward",
    "Verif.BatchNorm.c106_accum",
    "Verif.BatchNorm.c106_global",
    "Verif.BatchNorm.c106_optional",
    "Verif.BatchNorm.c106_global_accum"
   ],
   "note": "Exact reals; derivative along every differentiable path through x, gamma and beta jointly, with three outputs."
  },
  {
   "property": "C107",
   "status": "partial",
   "theorems": [
    "Verif.GraphConv.c107_same_partial",
    "Verif.GraphConv.c107_identity_partial",
    "Verif.GraphConv.c107_remove_partial",
    "Verif.GraphConv.c107_retype_partial",
    "Verif.GraphConv.c107_refuted_no_inputs",
    "Verif.GraphConv.c107_refuted_unused_output",
    "Verif.GraphConv.c107_refuted_stale_branch",
    "Verif.GraphConv.c107_refuted_second_input"
   ],
   "note": "Proved for graphs whose functions all have inputs and where only trailing outputs of a function are unused, and replaced leaves are first inputs; otherwise refuted: functions without inputs raise, an unused first output disconnects or leaves the later ones in the old graph, IdentityModifier ignores replacements of second inputs."
  },
  {
   "property": "C108",
   "status": "partial",
   "theorems": [
    "Verif.GraphConv.Fold.c108_fold_partial",
    "Verif.GraphConv.Fold.c108_refuted_fork",
    "Verif.GraphConv.Fold.c108_refuted_chain",
    "Verif.GraphConv.Fold.c108_refuted_second_conversion",
    "Verif.GraphConv.Fold.c108_refuted_bn_first"
   ],
   "note": "Proved when each layer before a batch normalization has no other consumer, layers have biases (AddBiasModifier), batch normalizations do not follow each other after a layer, and scopes are fresh. Refuted otherwise: a forked layer is not folded but its batch normalization is dropped; of two in a row both are dropped; a second conversion reuses the first one's parameters; a network starting with batch normalization raises."
  },
  {
   "property": "C109",
   "status": "partial",
   "theorems": [
    "Verif.GraphConv.Fold.c109_self_fold_partial",
    "Verif.GraphConv.Fold.c109_refuted_second_conversion"
   ],
   "note": "Proved for the first conversion; a second one uses the parameters of the first (counter restarts, get_parameter_or_create)."
  },
  {
   "property": "C11",
   "status": "partial",
   "theorems": [
    "C11_thread_sequential",
    "C11_thread_transparent_partial",
    "C11_thread_progress",
    "C11_blocks_after_stop",
    "C11_simple_never_none",
    "C11_refutation"
   ],
   "note": "Every schedule; sources that never fail. Refuted for failing sources and after StopIteration."
  },
  {
   "property": "C110",
   "status": "partial",
   "theorems": [
    "Verif.GraphConv.Fold.c110_affine_partial",
    "Verif.GraphConv.Fold.c110_opposite_partial",
    "Verif.GraphConv.Fold.c110_refuted_affine",
    "Verif.GraphConv.Fold.c110_refuted_opposite"
   ],
   "note": "Affine: scales multiply rows (inputs) of the weight, right only if all equal. Opposite: the bias uses the already scaled weight, right only if every channel is only scaled or only shifted, without padding."
  },
  {
   "property": "C111",
   "status": "partial",
   "theorems": [
    "Verif.GraphDef.c111_handed_out_names_distinct_partial",
    "Verif.GraphDef.c111_variable_keys_distinct_partial",
    "Verif.GraphDef.c111_unique_name_refuted",
    "Verif.GraphDef.c111_user_name_overwritten"
   ],
   "note": "Distinct when no requested name is a numbered version of another and user names are kept apart from generated ones; full claim refuted: requests a, a_1, a give a, a_1, a_1, and an input called ReLU_out is overwritten by the ReLU's output."
  },
  {
   "property": "C112",
   "status": "proved",
   "theorems": [
    "Verif.GraphDef.c112_traversal",
    "Verif.GraphDef.c112_forward_sequence",
    "Verif.GraphDef.forwardSequence_unique"
   ],
   "note": "For every well-formed acyclic network and every choice of stop flags, by induction over a rank of the functions."
  },
  {
   "property": "C113",
   "status": "proved",
   "theorems": [
    "Verif.GraphDef.c113_call_obeys_network",
    "Verif.GraphDef.c113_order_in_file_irrelevant",
    "Verif.GraphDef.solution_unique"
   ],
   "note": "Functions are arbitrary; values are the unique solution of the network's equations."
  },
  {
   "property": "C114",
   "status": "proved",
   "theorems": [
    "Verif.GraphDef.c114_export_round_trip",
    "Verif.GraphDef.c114_ports"
   ],
   "note": "Structure (names, types, wiring); shapes and batch sizes are C117."
  },
  {
   "property": "C115",
   "status": "partial",
   "theorems": [
    "Verif.GraphDef.c115_remove_identity_read_partial",
    "Verif.GraphDef.c115_remove_identity_output_partial",
    "Verif.GraphDef.c115_remove_two_identities_refuted",
    "Verif.GraphDef.c115_reader_forgotten_refuted",
    "Verif.GraphDef.c115_remove_identity_of_input_refuted",
    "Verif.GraphDef.c115_remove_parameter_refuted"
   ],
   "note": "Proved when the copied variable is an ordinary variable and the copy is read by functions, or the copy is a network output and the original is produced and otherwise unread; refuted for copies of parameters, for a network output copying a network input, and for two outputs copying one variable."
  },
  {
   "property": "C116",
   "status": "partial",
   "theorems": [
    "Verif.GraphDef.c116_rename_output_partial",
    "Verif.GraphDef.c116_rename_inner_refuted",
    "Verif.GraphDef.c116_rename_swap_refuted"
   ],
   "note": "Proved for a variable that no function reads and an unused new name; refuted for variables that are read (readers keep the old name) and for swapping two names."
  },
  {
   "property": "C117",
   "status": "partial",
   "theorems": [
    "Verif.GraphDef.Batch.c117_export_frees_batch_partial",
    "Verif.GraphDef.Batch.c117_first_call_partial",
    "Verif.GraphDef.Batch.c117_second_call_refuted",
    "Verif.GraphDef.Batch.c117_second_export_refuted",
    "Verif.GraphDef.Batch.c117_export_after_call_refuted",
    "Verif.GraphDef.Batch.c117_two_base_axes_refuted",
    "Verif.GraphDef.Batch.c117_broadcast_adds_axes",
    "Verif.GraphDef.Batch.c117_merge_axes"
   ],
   "note": "Export and first call proved for networks whose functions use the first axis as batch axis; a second call keeps the first batch size, a second export records batch size -1, exporting after a call fails, two functions with base_axis 2 in a row export a wrong shape."
  },
  {
   "property": "C118",
   "status": "partial",
   "theorems": [
    "Verif.GraphDef.Scopes.c118_flat_scopes_partial",
    "Verif.GraphDef.Scopes.c118_nested_refuted",
    "Verif.GraphDef.Scopes.c118_exception_refuted"
   ],
   "note": "Proved for blocks that are not nested and not left by exceptions; refuted otherwise (a single global holds the previous builder, no try/finally)."
  },
  {
   "property": "C119",
   "status": "proved",
   "theorems": [
    "Verif.Elem.C119_setup",
    "Verif.Elem.C119_bad_axis",
    "Verif.Elem.C119_forward",
    "Verif.Elem.C119_backward",
    "Verif.Elem.C119_frame"
   ],
   "note": "Exact reals, unbounded sizes, non-empty arrays (an empty array divides by zero in setup)."
  },
  {
   "property": "C12",
   "status": "proved",
   "theorems": [
    "C12_memory_cache",
    "C12_not_on_memory"
   ],
   "note": ""
  },
  {
   "property": "C120",
   "status": "proved",
   "theorems": [
    "Verif.Elem.C119_setup",
    "Verif.Elem.C120_forward",
    "Verif.Elem.C120_backward",
    "Verif.Elem.C119_frame"
   ],
   "note": "Exact reals; the gradient holds at every x, zeros included."
  },
  {
   "property": "C121",
   "status": "partial",
   "theorems": [
    "Verif.Select.C121_gather_partial",
    "Verif.Select.C121_gather_shape_refuted",
    "Verif.Select.C121_gather_shape",
    "Verif.Select.C121_empty_refuted",
    "Verif.Select.C121_scatter",
    "Verif.Select.C121_scatter_short",
    "Verif.Select.C121_round_trip",
    "Verif.Select.C121_backward",
    "Verif.Select.C121_fill"
   ],
   "note": "Refuted: an all-zero mask divides by zero; with two or more trailing dimensions bool_gather merges them into one instead of the documented shape. Everything else proved for masks that select at least one position."
  },
  {
   "property": "C122",
   "status": "proved",
   "theorems": [
    "Verif.Select.C122_nonzero"
   ],
   "note": "every shape and content"
  },
  {
   "property": "C123",
   "status": "partial",
   "theorems": [
    "Verif.Select.C123_flatten",
    "Verif.Select.C123_axis",
    "Verif.Select.uniqueRow_eq_iff",
    "Verif.Select.C123_empty_refuted"
   ],
   "note": "Proved for non-empty axes; refuted for empty ones (the code reads arg_indices[0] of an empty vector). std::sort/std::stable_sort enter by their C++ specification; elements form a linear order (no NaN)."
  },
  {
   "property": "C124",
   "status": "partial",
   "theorems": [
    "Verif.Detect.C124_per_class",
    "Verif.Detect.C124_objectness",
    "Verif.Detect.C124_objectness_classes",
    "Verif.Detect.C124_iou_symm",
    "Verif.Detect.C124_iou_range",
    "Verif.Detect.C124_iou_self",
    "Verif.Detect.C124_per_class_pairwise_refuted"
   ],
   "note": "Proved in full for nms_per_class=False. For nms_per_class=True the documented pairwise rule is refuted by a witness (suppressed boxes do not suppress others); what holds, greedy NMS, is proved. Exact arithmetic; std::sort by specification."
  },
  {
   "property": "C125",
   "status": "partial",
   "theorems": [
    "Verif.Detect.C125_setup",
    "Verif.Detect.C125_setup_refuses",
    "Verif.Detect.C125_index",
    "Verif.Detect.C125_count",
    "Verif.Detect.C125_total",
    "Verif.Detect.C125_label_refuted"
   ],
   "note": "Proved for labels that are classes; refuted that other labels are refused (out-of-bounds write)."
  },
  {
   "property": "C126",
   "status": "partial",
   "theorems": [
    "Verif.Store.C126_number_of_references",
    "Verif.Store.C126_positive",
    "Verif.Store.C126_clears_only_unused",
    "Verif.Store.C126_last_reference_clears",
    "Verif.Store.C126_refuted_ndarray_not_counted",
    "Verif.Store.C126_family_not_cleared"
   ],
   "note": "Counter exact and clearing exact with respect to Python Variables for every history. The full claim (no Python object loses its data) is refuted: a Python NdArray taken from the Variable is not counted."
  },
  {
   "property": "C127",
   "status": "partial",
   "theorems": [
    "Verif.Store.C127_size",
    "Verif.Store.C127_reshape",
    "Verif.Store.C127_view",
    "Verif.Store.C127_agree_partial",
    "Verif.Store.C127_new_agree",
    "Verif.Store.C127_refuted_view",
    "Verif.Store.C127_refuted_failed_reshape"
   ],
   "note": "All but Variable.shape = data.shape = grad.shape, which is refuted (shared NdArray reshaped through a view; exception half way through a forced reshape) and proved to be kept by every other operation."
  },
  {
   "property": "C128",
   "status": "partial",
   "theorems": [
    "Verif.Hooks.C128_registry",
    "Verif.Hooks.C128_function_hooks",
    "Verif.Hooks.C128_solver_pre_hooks_partial",
    "Verif.Hooks.C128_refuted_solver_post_hook",
    "Verif.Hooks.C128_refuted_replace"
   ],
   "note": "Registry and function hooks proved. Refuted for solvers: ScopedCallback(...) is an unnamed temporary, so post hooks run before the parameter is processed."
  },
  {
   "property": "C129",
   "status": "partial",
   "theorems": [
    "Verif.Hooks.C129_content_partial",
    "Verif.Hooks.C129_lifetime",
    "Verif.Hooks.C129_refuted_ones_after_zeros",
    "Verif.Hooks.C129_refuted_zeros_dangling"
   ],
   "note": "Refuted: zeros stores its array in ones_, so ones after zeros gives zeros, and a second zeros frees the first array."
  },
  {
   "property": "C13",
   "status": "partial",
   "theorems": [
    "C13_slices_partial",
    "C13_refutation_lag",
    "C13_refutation_memory_cache"
   ],
   "note": "Over SimpleDataSource, lag at most 14 epochs; refuted beyond and over an on-memory cache."
  },
  {
   "property": "C130",
   "status": "partial",
   "theorems": [
    "Verif.Rand.C130_shift_range",
    "Verif.Rand.C130_shift_reachable",
    "Verif.Rand.C130_shift_fresh",
    "Verif.Rand.C130_shift_gathers",
    "Verif.Rand.C130_shift_grad",
    "Verif.Rand.C130_shift_forward_partial",
    "Verif.Rand.C130_reflect_large_shift"
   ],
   "note": "Gradient and memory safety hold for every base axis and shift. The position formula is proved for base_axis <= 1 and, in reflect mode, shifts up to twice the extent; beyond that the reflection is off by one (witness)."
  },
  {
   "property": "C131",
   "status": "partial",
   "theorems": [
    "Verif.Rand.C131_crop_setup",
    "Verif.Rand.C131_crop_starts",
    "Verif.Rand.C131_crop_reachable",
    "Verif.Rand.C131_crop_grad",
    "Verif.Rand.C131_crop_forward",
    "Verif.Rand.C131_flip_axes",
    "Verif.Rand.C131_flip_draw",
    "Verif.Rand.C131_flip_grad_partial",
    "Verif.Rand.C131_flip_forward",
    "Verif.Rand.C131_flip_sample_axis_wrong"
   ],
   "note": "Everything except the gradient of flips of sample axes (axes before base_axis), which goes to wrong elements (witness)."
  },
  {
   "property": "C132",
   "status": "partial",
   "theorems": [
    "Verif.Rand.C132_sample_number",
    "Verif.Rand.C132_own_pattern_partial",
    "Verif.Rand.C132_two_axes_share"
   ],
   "note": "True for base_axis <= 1; with two sample axes the shared counter is advanced once per level, so two samples always share a pattern (proved for every draw on shape (2,2,3))."
  },
  {
   "property": "C133",
   "status": "partial",
   "theorems": [
    "Verif.Rand.C133_choice_interval",
    "Verif.Rand.C133_choice_row",
    "Verif.Rand.C133_choice_distinct",
    "Verif.Rand.C133_choice_terminates_partial",
    "Verif.Rand.C133_choice_grad",
    "Verif.Rand.C133_negative_unchecked"
   ],
   "note": "Termination in at most inner_loop rounds for non-negative weights; negative weights are not rejected without replacement (witness)."
  },
  {
   "property": "C134",
   "status": "proved",
   "theorems": [
    "Verif.Rand.C134_recompute_replays",
    "Verif.Rand.C134_recompute_no_draw",
    "Verif.Rand.C134_seeded"
   ],
   "note": "Invariant over all histories of one function with an arbitrary kernel and arbitrary foreign uses of the global generator."
  },
  {
   "property": "C135",
   "status": "partial",
   "theorems": [
    "Verif.Rand.C135_dropout_forward",
    "Verif.Rand.C135_dropout_draws",
    "Verif.Rand.C135_dropout_grad_partial",
    "Verif.Rand.C135_dropout_second_backward"
   ],
   "note": "A second backward after one forward finds its mask cleared (witness)."
  },
  {
   "property": "C136",
   "status": "partial",
   "theorems": [
    "Verif.Rand.C136_erase_forward",
    "Verif.Rand.C136_erase_backward",
    "Verif.Rand.C136_erase_size_partial",
    "Verif.Rand.C136_erase_size_wrong",
    "Verif.Rand.C136_erase_table"
   ],
   "note": "The rectangle covers one row and one column too many because the end coordinates are inclusive (witness)."
  },
  {
   "property": "C137",
   "status": "proved",
   "theorems": [
    "Verif.Solver.C137_sgd",
    "Verif.Solver.C137_momentum",
    "Verif.Solver.C137_sgdw",
    "Verif.Solver.C137_nesterov",
    "Verif.Solver.C137_adagrad",
    "Verif.Solver.C137_rmsprop",
    "Verif.Solver.C137_adadelta",
    "Verif.Solver.C137_graves",
    "Verif.Solver.C137_adam",
    "Verif.Solver.C137_adamw",
    "Verif.Solver.C137_adabound",
    "Verif.Solver.C137_amsgrad",
    "Verif.Solver.C137_amsbound",
    "Verif.Solver.C137_adamax",
    "Verif.Solver.C137_lion"
   ],
   "note": "Element rules over the reals, from zero initial state; Lars and Lamb are C58/C62."
  },
  {
   "property": "C138",
   "status": "partial",
   "theorems": [
    "Verif.Mat.C138_diag",
    "Verif.Mat.C138_diag_grad",
    "Verif.Mat.C138_part_partial",
    "Verif.Mat.C138_part_grad",
    "Verif.Mat.C138_part_not_square_wrong"
   ],
   "note": "matrix_diag in full; matrix_diag_part for square non-empty matrices; refuted otherwise (assignment instead of comparison in the check)."
  },
  {
   "property": "C139",
   "status": "partial",
   "theorems": [
    "Verif.Mat.C139_trilu_partial",
    "Verif.Mat.C139_trilu_grad",
    "Verif.Mat.C139_empty_wrong",
    "Verif.Mat.C139_nan_leaks"
   ],
   "note": "Proved for non-empty matrices over any element type in which v*0 = 0."
  },
  {
   "property": "C14",
   "status": "proved",
   "theorems": [
    "C14_file_cache"
   ],
   "note": "Includes cache creation (chunking), truncation, tables and lookups."
  },
  {
   "property": "C140",
   "status": "partial",
   "theorems": [
    "Verif.Mat.C140_meshgrid",
    "Verif.Mat.C140_meshgrid_grad_partial",
    "Verif.Mat.C140_grad_lost_wrong"
   ],
   "note": "Forward in full; gradient when one of the first two inputs wants one."
  },
  {
   "property": "C141",
   "status": "proved",
   "theorems": [
    "Verif.Norm.C141_forward",
    "Verif.Norm.C141_grad",
    "Verif.Norm.C141_gradX",
    "Verif.Norm.C141_accum"
   ],
   "note": "On top of the models of Transpose and BatchNormalization; both the adapter path (axes.length != 1) and the direct path. Exact reals; propagate_down all true."
  },
  {
   "property": "C142",
   "status": "proved",
   "theorems": [
    "Verif.Norm.C142_setup",
    "Verif.Norm.C142_forward",
    "Verif.Norm.C142_grad",
    "Verif.Norm.C142_accum"
   ],
   "note": "Exact real arithmetic; nonempty x."
  },
  {
   "property": "C143",
   "status": "proved",
   "theorems": [
    "Verif.Norm.C143_forward",
    "Verif.Norm.C143_grad",
    "Verif.Norm.C143_accum",
    "Verif.Norm.C143_rejects"
   ],
   "note": "Exact real arithmetic; nonempty x; parameters of at most x's rank (a parameter of lower rank is read out of range at the channel axis by the C++)."
  },
  {
   "property": "C144",
   "status": "partial",
   "theorems": [
    "Verif.Norm.C144_setup_partial",
    "Verif.Norm.C144_forward_partial",
    "Verif.Norm.C144_grad_partial",
    "Verif.Norm.C144_accum_partial",
    "Verif.Norm.C144_batch_after_channel_refuted"
   ],
   "note": "Proved when every batch axis is before the channel axis. Otherwise false: batch axes are not shifted after the channel split; C144_batch_after_channel_refuted is a witness."
  },
  {
   "property": "C145",
   "status": "proved",
   "theorems": [
    "Verif.Norm.C145_weight_standardization"
   ],
   "note": "Exact real arithmetic."
  },
  {
   "property": "C146",
   "status": "partial",
   "theorems": [
    "Verif.Native.C146_get_or_create",
    "Verif.Native.C146_get_or_put",
    "Verif.Native.C146_stable",
    "Verif.Native.C146_nesting",
    "Verif.Native.C146_listing",
    "Verif.Native.C146_listing_partial",
    "Verif.Native.C146_listing_refuted",
    "Verif.Native.C146_deep_copy",
    "Verif.Native.C146_deep_copy_independent",
    "Verif.Native.C146_deep_copy_sharing_refuted",
    "Verif.Native.C146_order"
   ],
   "note": "False as stated for get_parameters of a scope whose name is a prefix of another's (conv1 lists conv10/W: C146_listing_refuted); proved without such names. A deep copy separates a variable registered under two names (C146_deep_copy_sharing_refuted)."
  },
  {
   "property": "C147",
   "status": "partial",
   "theorems": [
    "Verif.Native.C147_sharing",
    "Verif.Native.C147_creates",
    "Verif.Native.C147_layers_partial",
    "Verif.Native.C147_fix_parameters_refuted"
   ],
   "note": "fix_parameters is ignored by all C++ parametric functions: refuted; the rest is proved."
  },
  {
   "property": "C148",
   "status": "proved",
   "theorems": [
    "Verif.Native.C148_selection",
    "Verif.Native.C148_extension"
   ],
   "note": ""
  },
  {
   "property": "C149",
   "status": "partial",
   "theorems": [
    "Verif.Norm.C149_setup",
    "Verif.Norm.C149_running_mean",
    "Verif.Norm.C149_output",
    "Verif.Norm.C149_grad_global",
    "Verif.Norm.C149_grad_partial",
    "Verif.Norm.C149_grad_refuted"
   ],
   "note": "The training gradient is right only for one sample per batch; for more it ignores that the mean depends on the other samples (C149_grad_refuted)."
  },
  {
   "property": "C15",
   "status": "partial",
   "theorems": [
    "C15_concat",
    "C15_refutation_duplicate"
   ],
   "note": "Proved for pairwise distinct source objects; refuted for a duplicated object."
  },
  {
   "property": "C150",
   "status": "partial",
   "theorems": [
    "Verif.Grad2.C150_defined",
    "Verif.Grad2.C150_first",
    "Verif.Grad2.C150_kink",
    "Verif.Grad2.C150_second_partial",
    "Verif.Grad2.C150_sides",
    "Verif.Grad2.C150_sinc_refuted"
   ],
   "note": "First derivative: all functions but mish (which raises). Second derivative: proved at every point except the kinks, 0 for sinc (refuted) and 0 for pow_scalar with exponents whose derivative graph is singular there (dom2)."
  },
  {
   "property": "C151",
   "status": "partial",
   "theorems": [
    "Verif.Grad2.C151_arithmetic_partial",
    "Verif.Grad2.C151_same_shape",
    "Verif.Grad2.C151_unsummed_refuted"
   ],
   "note": "Full claim proved for add2, sub2, mul2, div2 and, without broadcasting, for all; refuted for the functions that lack sum_for_arithmetics. Points where the function is not smooth are excluded."
  },
  {
   "property": "C152",
   "status": "proved",
   "theorems": [
    "Verif.Solver.C152_lamb",
    "Verif.Solver.C152_lars"
   ],
   "note": "gamma_l <= gamma_u for Lamb, weight decay rate >= 0 for Lars; exact reals."
  },
  {
   "property": "C153",
   "status": "proved",
   "theorems": [
    "Verif.Framework.C153_order",
    "Verif.Framework.C153_training"
   ],
   "note": "Hooks are atomic actions on an arbitrary state that may raise; attributes of worker/updater/evaluator are constant during training."
  },
  {
   "property": "C154",
   "status": "partial",
   "theorems": [
    "Verif.Framework.C154_crash",
    "Verif.Framework.C154_resume_partial",
    "Verif.Framework.C154_total_refuted",
    "Verif.Framework.C154_prepare_refuted"
   ],
   "note": "Proved for training_prepare that keeps the loaded state: result = uninterrupted training of (epochs finished before) + max_epoch. The full claim is refuted twice."
  },
  {
   "property": "C155",
   "status": "partial",
   "theorems": [
    "Verif.Dlpack.C155_safe",
    "Verif.Dlpack.C155_export",
    "Verif.Dlpack.C155_no_crash_partial",
    "Verif.Dlpack.C155_no_leak_partial",
    "Verif.Dlpack.C155_export_both_refuted",
    "Verif.Dlpack.C155_reexport_raises",
    "Verif.Dlpack.C155_crash_refuted",
    "Verif.Dlpack.C155_crash_export",
    "Verif.Dlpack.C155_leak_refuted"
   ],
   "note": "Ownership safety (no double delete, unique owner, memory kept) holds for all histories. The rest of the claim is false of the code: from_dlpack(c, arr) into an NdArray with an ordinary array of the same dtype and size dereferences a null dynamic_cast; into one with a borrowed array it drops the old tensor without calling its deleter; to_dlpack with both dtype and ctx ignores both and crashes on an unused array; a borrowed array cannot be exported. The _partial theorems prove that these are the only crashes and leaks."
  },
  {
   "property": "C156",
   "status": "partial",
   "theorems": [
    "Verif.Dlpack.C156_import_type_partial",
    "Verif.Dlpack.C156_bfloat_refuted",
    "Verif.Dlpack.C156_bfloat_values",
    "Verif.Dlpack.C156_float16_rejected",
    "Verif.Dlpack.C156_roundtrip_type",
    "Verif.Dlpack.C156_half_export_refuted",
    "Verif.Dlpack.C156_export_type_partial",
    "Verif.Dlpack.C156_layout_sound",
    "Verif.Dlpack.C156_null_strides_refuted",
    "Verif.Dlpack.C156_unit_axis_refuted",
    "Verif.Dlpack.C156_layout_complete_partial",
    "Verif.Dlpack.C156_roundtrip_layout"
   ],
   "note": "False of the code: HALF is exchanged as bfloat (values change, real float16 tensors are rejected), NULL strides are dereferenced, and strides of size-1 axes are compared. Layout soundness and both round trips hold for all shapes and platforms."
  },
  {
   "property": "C157",
   "status": "partial",
   "theorems": [
    "Verif.Inq.C157_codebook",
    "Verif.Inq.C157_nearest",
    "Verif.Inq.C157_learnable",
    "Verif.Inq.C157_half",
    "Verif.Inq.C157_all",
    "Verif.Inq.C157_stays",
    "Verif.Inq.C157_fixed_partial",
    "Verif.Inq.C157_final",
    "Verif.Inq.C157_fixed_refuted"
   ],
   "note": "Everything holds except 'never changes again': when a learnable weight grows, the codebook moves up and fixed weights are re-quantized, even to 0 (C157_fixed_refuted). They are constant while the largest exponent does not grow, and for ever once all weights are fixed (C157_final)."
  },
  {
   "property": "C158",
   "status": "partial",
   "theorems": [
    "Verif.IntOps.C158_mod",
    "Verif.IntOps.C158_trap_refuted",
    "Verif.IntOps.C158_fmod_partial",
    "Verif.IntOps.C158_fmod_refuted",
    "Verif.IntOps.C158_shift"
   ],
   "note": "False of the code: a zero divisor (and MIN % -1) traps instead of giving numpy's value; fmod=True converts 64 bit integers to double and is wrong above 2^53. bit_shift is proved in full. Floating point mod2 is not modelled."
  },
  {
   "property": "C159",
   "status": "proved",
   "theorems": [
    "Verif.VAlloc.C159_exclusive",
    "Verif.VAlloc.C159_size",
    "Verif.VAlloc.C159_identity",
    "Verif.VAlloc.C159_unbind",
    "Verif.VAlloc.C159_alloc",
    "Verif.VAlloc.C159_free"
   ],
   "note": "chunk sizes positive; bind() assumed not to throw; Memory::grow follows its documented contract; size_t as Nat"
  },
  {
   "property": "C16",
   "status": "proved",
   "theorems": [
    "Verif.LR.C16_polynomial",
    "Verif.LR.C16_cosine",
    "Verif.LR.C16_exponential",
    "Verif.LR.C16_step",
    "Verif.LR.C16_step_order",
    "Verif.LR.C16_warmup"
   ],
   "note": "over exact reals"
  },
  {
   "property": "C160",
   "status": "proved",
   "theorems": [
    "Verif.VAlloc.C160_reuse"
   ],
   "note": "same modelling assumptions as C159"
  },
  {
   "property": "C161",
   "status": "partial",
   "theorems": [
    "Verif.VAlloc.C161_count_partial",
    "Verif.VAlloc.C161_available_partial",
    "Verif.VAlloc.C161_available_refuted",
    "Verif.VAlloc.C161_fragmentation_refuted",
    "Verif.VAlloc.C161_count_refuted"
   ],
   "note": "count exact while no allocation fails; available bytes is only a lower bound (physical cache test inverted), fragmentation not updated on reuse, count drifts on a failed growth: refuted by witnesses"
  },
  {
   "property": "C162",
   "status": "proved",
   "theorems": [
    "Verif.Stft.C162_stft"
   ],
   "note": "Composition of the models of Pad, Convolution and the coefficient loops; real arithmetic. Hypothesis: the first frame fits."
  },
  {
   "property": "C163",
   "status": "partial",
   "theorems": [
    "Verif.Stft.C163_reconstruct_partial",
    "Verif.Stft.C163_accepts",
    "Verif.Stft.C163_default_rejected",
    "Verif.Stft.C163_odd_refuted"
   ],
   "note": "Proved for every even fft_size. Refuted for every odd fft_size >= 3 (bin fft_size/2 weighted 1 instead of 2) and for the default arguments (pad_mode='reflect' is always refused)."
  },
  {
   "property": "C164",
   "status": "partial",
   "theorems": [
    "Verif.Stft.C164_stft_grad",
    "Verif.Stft.C164_as_stft_backward_partial",
    "Verif.Stft.C164_shape_refuted"
   ],
   "note": "STFT::backward fully proved. The nn.grad rule agrees with it when the stride divides the length beyond the first frame; otherwise its result is shorter than x (witness)."
  },
  {
   "property": "C165",
   "status": "proved",
   "theorems": [
    "Verif.Act.C165_setup",
    "Verif.Act.C165_unpooling"
   ],
   "note": "A 0-dimensional input reads strides()[0] of an empty vector in the code (undefined behaviour) and is excluded."
  },
  {
   "property": "C166",
   "status": "proved",
   "theorems": [
    "Verif.Act.C166_setup",
    "Verif.Act.C166_prelu"
   ],
   "note": "Exact reals; at x = 0 the function has no derivative and no gradient claim is made."
  },
  {
   "property": "C167",
   "status": "proved",
   "theorems": [
    "Verif.Act.C167_crelu",
    "Verif.Act.C167_celu",
    "Verif.Act.C167_rejects"
   ],
   "note": "Exact reals. An input without elements from the axis on makes setup divide by zero (modelled as a rejection)."
  },
  {
   "property": "C168",
   "status": "partial",
   "theorems": [
    "Verif.NormFn.C168_by_value_partial",
    "Verif.NormFn.C168_shapes_refuted",
    "Verif.NormFn.C168_by_norm"
   ],
   "note": "clip_grad_by_norm: proved (axes of one sign, as the code's axis refinement demands). clip_grad_by_value: proved for equal shapes; the rejection of other shapes is refuted (min/max of other shapes are read out of bounds)."
  },
  {
   "property": "C169",
   "status": "partial",
   "theorems": [
    "Verif.NormFn.C169_rejects",
    "Verif.NormFn.C169_global_average_pooling_partial",
    "Verif.NormFn.C169_more_axes_refuted"
   ],
   "note": "Proved for up to four axes; with more axes the code ignores them (refuted by a witness)."
  },
  {
   "property": "C17",
   "status": "proved",
   "theorems": [
    "Verif.Monitor.C17_accounting",
    "Verif.Monitor.C17_spacing",
    "Verif.Monitor.C17_regular"
   ],
   "note": "floats as rationals"
  },
  {
   "property": "C170",
   "status": "proved",
   "theorems": [
    "Verif.NormFn.C170_setup",
    "Verif.NormFn.C170_norm"
   ],
   "note": "Exact reals; axes counted from different ends fail already in Sum (C85), empty arrays divide by zero there."
  },
  {
   "property": "C171",
   "status": "partial",
   "theorems": [
    "Verif.NormFn.C171_norm_normalization_partial",
    "Verif.NormFn.C171_uninitialised_refuted"
   ],
   "note": "Proved when the out-of-bounds bit accum[1] read by Div2 is 0. Refuted otherwise: backward passes an accum vector of one element to a two-input function; with that bit 1 the uninitialised gradient buffer of the norm leaks into the gradient of x (C171_uninitialised_refuted)."
  },
  {
   "property": "C172",
   "status": "proved",
   "theorems": [
    "Verif.NormFn.C172_setup",
    "Verif.NormFn.C172_weight_normalization"
   ],
   "note": "For a 0-dimensional g the code reads gshape[0] of an empty vector before it checks the number of axes: the model stops there."
  },
  {
   "property": "C173",
   "status": "proved",
   "theorems": [
    "Verif.Singleton.C173_get",
    "Verif.Singleton.C173_stable",
    "Verif.Singleton.C173_erase",
    "Verif.Singleton.C173_ids"
   ],
   "note": "Sequential histories; constructors and destructors that themselves call the manager are not modelled."
  },
  {
   "property": "C174",
   "status": "partial",
   "theorems": [
    "Verif.Singleton.Ones.C174_ones_partial",
    "Verif.Singleton.Ones.C174_zeros_refuted"
   ],
   "note": "Proved for histories without zeros(); refuted with it: zeros stores its array into ones_, so ones() afterwards returns zeros, and a second zeros() frees the first array."
  },
  {
   "property": "C175",
   "status": "partial",
   "theorems": [
    "Verif.Dot.C175_dot_partial",
    "Verif.Dot.C175_mismatch",
    "Verif.Dot.C175_refuted"
   ],
   "note": "Proved for arguments with at least one axis and elements; refuted: 0-dimensional Variables are captured by value at construction, vectors of lengths 1 and n are accepted."
  },
  {
   "property": "C176",
   "status": "partial",
   "theorems": [
    "Verif.NAry.C176_setup",
    "Verif.NAry.C176_value",
    "Verif.NAry.C176_not_read",
    "Verif.NAry.C176_add_n",
    "Verif.NAry.C176_mul_n_partial",
    "Verif.NAry.C176_mul_n_zero",
    "Verif.NAry.C176_all_off"
   ],
   "note": "Partial because refuted in two places: mul_n's gradient divides by the input (wrong/NaN when an input in use contains 0), and a mask that switches everything off is accepted and leaves the output unwritten. Everything else is proved."
  },
  {
   "property": "C177",
   "status": "partial",
   "theorems": [
    "Verif.NAry.C177_mask_stays_partial",
    "Verif.NAry.C177_mask_lost"
   ],
   "note": "Holds while input shapes stay those of the last setup; refuted when inputs are reshaped: the automatic re-setup silently switches every input on."
  },
  {
   "property": "C178",
   "status": "partial",
   "theorems": [
    "Verif.NAry.C178_arange",
    "Verif.NAry.C178_arange_hangs",
    "Verif.NAry.C178_arange_f32"
   ],
   "note": "Proved in exact arithmetic; refuted for the float arithmetic of the code: the counting loop never ends when value + step rounds to value (arange(16777210, 16777220, 1))."
  },
  {
   "property": "C179",
   "status": "proved",
   "theorems": [
    "Verif.NAry.C179_linspace",
    "Verif.NAry.C179_eye_like"
   ],
   "note": "exact reals, unbounded integers"
  },
  {
   "property": "C18",
   "status": "partial",
   "theorems": [
    "Verif.Index.C18_getitem_partial",
    "Verif.Index.C18_refuted_low_start",
    "Verif.Index.C18_refuted_high_start",
    "Verif.Index.C18_refuted_past_end",
    "Verif.Index.C18_refuted_negative_extent",
    "Verif.Index.C18_refuted_newaxis",
    "Verif.Index.C18_leading_axes"
   ],
   "note": "Full agreement with NumPy for covered bounds; refuted (code bugs) for unclamped bounds and None with missing trailing axes. Rank 0 excluded."
  },
  {
   "property": "C180",
   "status": "proved",
   "theorems": [
    "Verif.Linalg.C180_setup",
    "Verif.Linalg.C180_batch_inv"
   ],
   "note": "Eigen's inverse()/determinant() are parameters assumed exact (Eigen.Exact); exact reals."
  },
  {
   "property": "C181",
   "status": "partial",
   "theorems": [
    "Verif.Linalg.C181_value",
    "Verif.Linalg.C181_batch_det_partial",
    "Verif.Linalg.C181_batch_det_singular"
   ],
   "note": "The gradient is proved for invertible matrices; refuted for singular ones, where backward computes gy*0*inverse instead of the adjugate."
  },
  {
   "property": "C182",
   "status": "proved",
   "theorems": [
    "Verif.Linalg.C182_batch_logdet"
   ],
   "note": "Eigen assumed exact; exact reals."
  },
  {
   "property": "C183",
   "status": "partial",
   "theorems": [
    "Verif.Interp.C183_interpolate_setup_partial",
    "Verif.Interp.C183_too_few_dimensions_refuted"
   ],
   "note": "Full claim refuted: an input with fewer dimensions than output_size passes the checks and writes outside of the shape vector."
  },
  {
   "property": "C184",
   "status": "partial",
   "theorems": [
    "Verif.Interp.C184_interpolate_linear_partial",
    "Verif.Interp.C184_half_pixel_single_output_refuted"
   ],
   "note": "Full claim refuted: with half_pixel and output size 1 the first sample is returned instead of the centre (compute_scale returns 0). Proved everywhere else, over the reals."
  },
  {
   "property": "C185",
   "status": "proved",
   "theorems": [
    "Verif.Interp.C185_interpolate_range",
    "Verif.Interp.C185_interpolate_corners",
    "Verif.Interp.C185_interpolate_same_size"
   ],
   "note": "Over the reals."
  },
  {
   "property": "C186",
   "status": "partial",
   "theorems": [
    "Verif.Interp.C186_interpolate_nearest_partial",
    "Verif.Interp.C186_not_nearest_refuted"
   ],
   "note": "Full claim refuted: the coordinate is truncated, so with align_corners a farther sample can be copied. Proved: the sample at or before the coordinate."
  },
  {
   "property": "C187",
   "status": "proved",
   "theorems": [
    "Verif.Interp.C187_interpolate_grad"
   ],
   "note": ""
  },
  {
   "property": "C188",
   "status": "partial",
   "theorems": [
    "Verif.Interp.C188_interpolate_output_size_partial",
    "Verif.Interp.C188_too_many_factors_refuted"
   ],
   "note": "Full claim refuted: surplus scale factors are silently dropped. Products and floors exact (rationals)."
  },
  {
   "property": "C189",
   "status": "proved",
   "theorems": [
    "Verif.Cache.C189_create_cache",
    "Verif.Cache.C189_create_order"
   ],
   "note": "npy format; one process; _process_row is a function of the row."
  },
  {
   "property": "C19",
   "status": "partial",
   "theorems": [
    "Verif.Index.C19_resetup_partial",
    "Verif.Index.C19_refuted"
   ],
   "note": "Any number of re-setups is harmless when the normalised bounds are non-negative; refuted for negative step with stop=None."
  },
  {
   "property": "C190",
   "status": "partial",
   "theorems": [
    "Verif.Cache.C190_prefetch_safe_partial",
    "Verif.Cache.C190_prefetch_progress_partial",
    "Verif.Cache.C190_no_threads_refuted"
   ],
   "note": "Proved for every positive number of threads, all calls and schedules. Refuted for cache_file_cache_num_of_threads = 0: the first read fails with UnboundLocalError."
  },
  {
   "property": "C191",
   "status": "proved",
   "theorems": [
    "Verif.Cache.C191_cache_round_trip"
   ],
   "note": "Composes C189 with the model of CacheDataSource."
  },
  {
   "property": "C192",
   "status": "proved",
   "theorems": [
    "Verif.Warp.C192_sample_position"
   ],
   "note": ""
  },
  {
   "property": "C193",
   "status": "proved",
   "theorems": [
    "Verif.Warp.C193_warp2",
    "Verif.Warp.C193_warp3"
   ],
   "note": ""
  },
  {
   "property": "C194",
   "status": "proved",
   "theorems": [
    "Verif.Warp.C194_image_gradient"
   ],
   "note": ""
  },
  {
   "property": "C195",
   "status": "partial",
   "theorems": [
    "Verif.Warp.C195_grid_gradient_partial",
    "Verif.Warp.C195_nearest_refused"
   ],
   "note": "Proved for grids whose sampled positions are not exactly on pixel centres (there forward has kinks and is not differentiable); nearest mode refuses the gradient of the grid."
  },
  {
   "property": "C196",
   "status": "partial",
   "theorems": [
    "Verif.Warp.C196_setup2_partial",
    "Verif.Warp.C196_reads_outside_refuted",
    "Verif.Warp.C196_no_kernel_refuted"
   ],
   "note": "Refuted in full: a 5-axis grid with 2 numbers per point is accepted and read beyond its end; a 3-axis grid is accepted with a scalar output no kernel writes. Proved: exact acceptance condition and output shape for 4-axis images and grids."
  },
  {
   "property": "C197",
   "status": "partial",
   "theorems": [
    "Verif.Warp.C197_affine_grid2_partial",
    "Verif.Warp.C197_affine_grid3_partial",
    "Verif.Warp.C197_single_pixel_refuted"
   ],
   "note": "Sizes of at least 2 along each axis; refuted for a size of 1, where the code divides 0 by 0."
  },
  {
   "property": "C198",
   "status": "proved",
   "theorems": [
    "Verif.Warp.C198_affine_grid_gradient"
   ],
   "note": ""
  },
  {
   "property": "C199",
   "status": "proved",
   "theorems": [
    "Verif.Warp.C199_identity2",
    "Verif.Warp.C199_identity3"
   ],
   "note": ""
  },
  {
   "property": "C20",
   "status": "proved",
   "theorems": [
    "Verif.SaveBuffer.C20_assigned",
    "Verif.SaveBuffer.C20_no_alias",
    "Verif.SaveBuffer.C20_optimal"
   ],
   "note": "Also: the number of buffers is minimal."
  },
  {
   "property": "C200",
   "status": "partial",
   "theorems": [
    "Verif.Solver.C200_adabelief_partial",
    "Verif.Solver.C200_documented_refuted",
    "Verif.Solver.C200_amsgrad_grows_refuted"
   ],
   "note": "Refuted in full: the code adds eps after the bias correction, keeps eps inside the stored s (discounted sum over the history), and with amsgrad raises the stored maximum by eps at every update, so it is n*eps even if all deviations are 0. Proved: the exact closed form of every update for histories shorter than 2^32-2, all options."
  },
  {
   "property": "C201",
   "status": "proved",
   "theorems": [
    "Verif.Solver.C201_rectification"
   ],
   "note": ""
  },
  {
   "property": "C202",
   "status": "proved",
   "theorems": [
    "Verif.WarpFlow.C202_warp_by_flow",
    "Verif.WarpFlow.C202_setup"
   ],
   "note": "Exact reals."
  },
  {
   "property": "C203",
   "status": "proved",
   "theorems": [
    "Verif.WarpFlow.C203_image_gradient",
    "Verif.WarpFlow.C203_inside"
   ],
   "note": "Exact reals."
  },
  {
   "property": "C204",
   "status": "partial",
   "theorems": [
    "Verif.WarpFlow.C204_flow_gradient_partial",
    "Verif.WarpFlow.C204_kink"
   ],
   "note": "Proved for flows that put no pixel exactly on a pixel centre of the image (positions outside the image included). Missing: pixel centres, where the output has a kink and no derivative exists (C204_kink; the zero flow is such a flow)."
  },
  {
   "property": "C205",
   "status": "proved",
   "theorems": [
    "Verif.PatchCorr.C205_patch_correlation",
    "Verif.PatchCorr.C205_setup",
    "Verif.PatchCorr.C205_extent",
    "Verif.PatchCorr.C205_extent_w",
    "Verif.PatchCorr.C205_shifts"
   ],
   "note": "Exact reals; no int overflow."
  },
  {
   "property": "C206",
   "status": "proved",
   "theorems": [
    "Verif.PatchCorr.C206_gradient1",
    "Verif.PatchCorr.C206_gradient2",
    "Verif.PatchCorr.C206_inside"
   ],
   "note": "Exact reals; two different input variables."
  },
  {
   "property": "C207",
   "status": "partial",
   "theorems": [
    "Verif.PatchCorr.C207_written_partial",
    "Verif.PatchCorr.C207_negative"
   ],
   "note": "Proved when no extent of the output is negative. False otherwise: a patch exceeding the image by more than a step in both directions is accepted, the product of the two negative extents is positive, and forward leaves that array unwritten (C207_negative)."
  },
  {
   "property": "C208",
   "status": "partial",
   "theorems": [
    "Verif.Roi.C208_roi_align_partial",
    "Verif.Roi.C208_empty_box",
    "Verif.Roi.C208_checked",
    "Verif.Roi.C208_setup"
   ],
   "note": "Proved for non-empty images and boxes with at least one sampling point per axis (always if sampling_ratio > 0). False otherwise: with sampling_ratio <= 0 a box without area gives 0 * (1/0), and a box turned over gives 0 or 0 * (1/0) (C208_empty_box). Exact reals."
  },
  {
   "property": "C209",
   "status": "partial",
   "theorems": [
    "Verif.Roi.C209_gradient_partial",
    "Verif.Roi.C209_inside"
   ],
   "note": "Missing: boxes with an empty sampling grid (forward is then not a number) and images without pixels."
  },
  {
   "property": "C21",
   "status": "proved",
   "theorems": [
    "Verif.SaveBuffer.C21_same_outputs",
    "Verif.SaveBuffer.C21_refuted_unused_input"
   ],
   "note": "The refutation witnesses the excluded case (unused network input placed in buffer 0)."
  },
  {
   "property": "C210",
   "status": "partial",
   "theorems": [
    "Verif.BcastTo.C210_broadcast_to_partial",
    "Verif.BcastTo.C210_succeeds",
    "Verif.BcastTo.C210_five",
    "Verif.BcastTo.C210_scalar",
    "Verif.BcastTo.C210_overhang"
   ],
   "note": "Proved for every case where forward is implemented and the axes of y lie within those of x. Missing because false: x of 5 or more dimensions with an axis is accepted by setup and refused by forward (C210_five); a scalar y with axis 0 is accepted and read out of bounds (C210_scalar); setup compares extents behind the end of the shape of x when axis + y.ndim > x.ndim, and forward may then write out of bounds (C210_overhang)."
  },
  {
   "property": "C211",
   "status": "partial",
   "theorems": [
    "Verif.Imper.C211_execute_writes_outputs_partial",
    "Verif.Imper.C211_execute_succeeds_iff",
    "Verif.Imper.C211_execute_error_changes_nothing",
    "Verif.Imper.C211_inplace_reshape_given_output_not_written"
   ],
   "note": "Proved for functions that share no buffers in setup and write all outputs, with pairwise different given buffers. False for in-place Reshape (the default): the given array is returned unwritten (proved)."
  },
  {
   "property": "C212",
   "status": "partial",
   "theorems": [
    "Verif.Imper.C212_reuse_same_as_fresh_partial",
    "Verif.Imper.C212_reshape_reuse",
    "Verif.Imper.C212_reshape_inferred_size_stays"
   ],
   "note": "Proved for objects whose copy after setup has the original settings (Reshape with all sizes given). False for Reshape with an inferred size: the size of the first call, even a failed one, stays (proved, with witness)."
  },
  {
   "property": "C213",
   "status": "proved",
   "theorems": [
    "Verif.Imper.C213_reshape_shape"
   ],
   "note": "If one size is negative and another zero the program divides by zero; counted as not accepted."
  },
  {
   "property": "C214",
   "status": "proved",
   "theorems": [
    "Verif.OnnxNms.C214_onnx_nms",
    "Verif.OnnxNms.C214_rows_grouped"
   ],
   "note": "Over an ordered field; std::sort as specified by the standard."
  },
  {
   "property": "C215",
   "status": "proved",
   "theorems": [
    "Verif.OnnxNms.C215_iou_symm",
    "Verif.OnnxNms.C215_iou_corners",
    "Verif.OnnxNms.C215_iou_range",
    "Verif.OnnxNms.C215_iou_formats",
    "Verif.OnnxNms.C215_iou_self"
   ],
   "note": "Over an ordered field."
  },
  {
   "property": "C216",
   "status": "partial",
   "theorems": [
    "Verif.OnnxNms.C216_output_of_last_setup_partial"
   ],
   "note": "False as stated: the selection is computed by setup only, forward_impl is empty; proved: the output is the selection for the inputs of the last successful setup (witness where it differs)."
  },
  {
   "property": "C217",
   "status": "partial",
   "theorems": [
    "Verif.Einsum.C217_explicit_partial",
    "Verif.Einsum.C217_implicit_partial",
    "Verif.Einsum.C217_spaces_lengthen_output",
    "Verif.Einsum.C217_spaces_change_output"
   ],
   "note": "Proved for equations without spaces. False with spaces: std::remove is not followed by erase, so the last characters are read again; proved that the output label is then never the one written."
  },
  {
   "property": "C218",
   "status": "partial",
   "theorems": [
    "Verif.Einsum.C218_dimensions_partial"
   ],
   "note": "Proved for terms with an ellipsis, and for all terms if none has one. False otherwise: a term without ellipsis may have an input with more dimensions (witness)."
  },
  {
   "property": "C219",
   "status": "proved",
   "theorems": [
    "Verif.Einsum.C219_term_positions",
    "Verif.Einsum.C219_sizes_accepted_iff"
   ],
   "note": "For positive sizes; the map of labels of each input is given as a list in order."
  },
  {
   "property": "C22",
   "status": "proved",
   "theorems": [
    "Verif.Nnb.C22_lookup",
    "Verif.Nnb.C22_disjoint"
   ],
   "note": ""
  },
  {
   "property": "C220",
   "status": "partial",
   "theorems": [
    "Verif.Einsum.C220_output_order_partial",
    "Verif.Einsum.C220_defined_iff"
   ],
   "note": "Order proved for every output whose labels are the labels of the contracted array with as many dimensions. The rejection part is false: 'i->ij' is silently read as 'i->i', 'i->ji' writes outside of the vector, 'i->ii' is accepted; equations with ellipses and spaces lead outside of the vector (witness examples beside the theorem; C220_defined_iff says exactly when all accesses are inside)."
  },
  {
   "property": "C221",
   "status": "partial",
   "theorems": [
    "Verif.Vat.C221_forward_partial",
    "Verif.Vat.C221_norm",
    "Verif.Vat.C221_base_axis_zero"
   ],
   "note": "Over exact reals, proved for all shapes without empty dimensions and base axes 1..ndim-1 (written from the front or the back). False for base axis 0 (and -ndim): it passes the check and strides()[-1] is read (C221_base_axis_zero); an empty sample divides by zero (example)."
  },
  {
   "property": "C222",
   "status": "proved",
   "theorems": [
    "Verif.Vat.C222_backward"
   ],
   "note": "Exact reals; Function::backward's zeroing of gradients included."
  },
  {
   "property": "C223",
   "status": "partial",
   "theorems": [
    "Verif.Vat.Fused.C223_forward",
    "Verif.Vat.Fused.C223_backward_partial",
    "Verif.Vat.Fused.C223_backward_no_residual",
    "Verif.Vat.Fused.C223_broadcast_outside"
   ],
   "note": "Forward proved for every broadcast; backward for z of the output's shape or without z. False for a broadcast z: forward accepts it, and backward with propagation to z always writes outside of its gradient (C223_broadcast_outside). The inner batch normalization is a given function (see C105, C106)."
  },
  {
   "property": "C224",
   "status": "partial",
   "theorems": [
    "Verif.SepConv.C224_forward_partial"
   ],
   "note": "Proved when kv is at least as wide and kh at least as high as the output. setup checks the height of kv and the width of kh only; without the other two conditions rows are read beyond their ends and then outside of the array (witness examples beside the theorem). Exact arithmetic."
  },
  {
   "property": "C225",
   "status": "partial",
   "theorems": [
    "Verif.SepConv.C225_gradient_partial",
    "Verif.SepConv.C225_exact_extents",
    "Verif.SepConv.coefficient"
   ],
   "note": "Proved for filters of exactly the extents of the output, and for the used elements of larger ones. False for larger filters, which setup accepts: the cast is write-only without accumulation, so the gradient of unused elements is the old content of the memory instead of 0 (example). Conditions on the unchecked extents as in C224."
  },
  {
   "property": "C226",
   "status": "partial",
   "theorems": [
    "Verif.SepConv.C226_gradient_partial",
    "Verif.SepConv.coefficient_x"
   ],
   "note": "Proved when kv is at least as wide and kh at least as high as the output (not checked by setup, see C224); otherwise filters are read outside (example). coefficient_x shows that the specified coefficients are the partial derivatives."
  },
  {
   "property": "C227",
   "status": "partial",
   "theorems": [
    "Verif.SepConv.C227_gradient_partial",
    "Verif.SepConv.C227_exact_extents",
    "Verif.SepConv.coefficient_kh"
   ],
   "note": "As C225, for the horizontal filter: proved for filters of exactly the extents of the output and for the used elements of larger ones; false for the unused elements of larger filters (example)."
  },
  {
   "property": "C228",
   "status": "proved",
   "theorems": [
    "Verif.Spectral.C228_transpositions_inverse"
   ],
   "note": "The two axis lists; that Transpose permutes elements by such a list is C72."
  },
  {
   "property": "C229",
   "status": "partial",
   "theorems": [
    "Verif.Spectral.C229_u_history_partial",
    "Verif.Spectral.C229_test_mode",
    "Verif.Spectral.C229_shared_u_regresses",
    "Verif.Spectral.C229_test_backward"
   ],
   "note": "Proved for a training function that alone uses its u, in all histories beginning with a forward. False if two functions share u: the backward calls set u back to the value after the first forward, an update is lost (C229_shared_u_regresses). False in test mode: backward reads memory never written (C229_test_backward; the project's tests call this unsupported, but nothing rejects it). Weights are fixed during a history; outputs not marked for recomputation (which stores u before forward also in test mode)."
  },
  {
   "property": "C23",
   "status": "proved",
   "theorems": [
    "Verif.Graph.forward_ok",
    "Verif.Graph.forward_no_parent",
    "Verif.Graph.forward_callback"
   ],
   "note": "as_recomputation=false path."
  },
  {
   "property": "C230",
   "status": "partial",
   "theorems": [
    "Verif.BinWeight.C230_values",
    "Verif.BinWeight.C230_optimal_partial",
    "Verif.BinWeight.C230_gradient",
    "Verif.BinWeight.C230_documented_scale_false",
    "Verif.BinWeight.C230_zero_refuted"
   ],
   "note": "Exact reals. Values and gradient proved in full; optimality for quantize_zero_to in [-1, 1] (the default is 1), refuted for 2. The documented scale 1/|w_j| is not what is computed (C230_documented_scale_false). The affine function itself is C87."
  },
  {
   "property": "C231",
   "status": "proved",
   "theorems": [
    "Verif.Resize.C231_linear",
    "Verif.Resize.C231_range"
   ],
   "note": "Exact reals, one dimension (the two- and three-dimensional loops are not modelled)."
  },
  {
   "property": "C232",
   "status": "partial",
   "theorems": [
    "Verif.Resize.C232_cubic",
    "Verif.Resize.C232_exclude_outside_partial"
   ],
   "note": "Exact reals, one dimension. With exclude_outside proved unless the remaining coefficients cancel; they can for an accepted a (a = 4, example), then 0 is divided by 0."
  },
  {
   "property": "C233",
   "status": "proved",
   "theorems": [
    "Verif.Resize.C233_nearest",
    "Verif.Resize.C233_output"
   ],
   "note": "Exact reals, one dimension."
  },
  {
   "property": "C234",
   "status": "partial",
   "theorems": [
    "Verif.Resize.C234_coordinates_partial"
   ],
   "note": "False for tf_crop_and_resize with scale 1: the region is ignored (witness). Exact reals."
  },
  {
   "property": "C235",
   "status": "proved",
   "theorems": [
    "Verif.MaxPoolBwd.C235_choice",
    "Verif.MaxPoolBwd.C235_region",
    "Verif.MaxPoolBwd.C235_order",
    "Verif.MaxPoolBwd.C235_forward",
    "Verif.MaxPoolBwd.C235_backward",
    "Verif.MaxPoolBwd.C235_adjoint"
   ],
   "note": "Two dimensions; linear order for the image, commutative semiring for gradients. With pad >= kernel (not rejected) a window in the padding sends its gradient to a border pixel (witness). The shape of dy is assumed to be the pooled shape (the function does not check it)."
  },
  {
   "property": "C236",
   "status": "proved",
   "theorems": [
    "Verif.BinWeight.C236_binary_connect",
    "Verif.BinWeight.C236_signs"
   ],
   "note": "With bias; exact reals; the internal Affine is modelled by its result (its own code is the subject of another claim)."
  },
  {
   "property": "C24",
   "status": "proved",
   "theorems": [
    "Verif.Graph.visitBackward_ok",
    "Verif.Graph.ranksOk_of_pass",
    "Verif.Graph.forward_backward_ok"
   ],
   "note": "Communicator callbacks and recomputation not modelled."
  },
  {
   "property": "C25",
   "status": "partial",
   "theorems": [
    "Verif.Graph.backward_gradient_partial",
    "Verif.Graph.exists_gradient",
    "Verif.Graph.gradient_unique",
    "Verif.Graph.backward_gradient_refuted"
   ],
   "note": "Missing: variables with need_grad=False that are outputs of a multi-output function on the gradient path; there the property is refuted (stale gradient read). Inactive inputs excluded."
  },
  {
   "property": "C26",
   "status": "partial",
   "theorems": [
    "Verif.Graph.forward_clear_safe_partial",
    "Verif.Graph.cleared_facts",
    "Verif.Graph.forward_clear_refuted_inactive"
   ],
   "note": "Missing: graphs with masked (inactive) inputs, where the property is refuted. Arrays are shared only through in-place functions; recomputation pass not modelled."
  },
  {
   "property": "C27",
   "status": "partial",
   "theorems": [
    "Verif.Synced.C27_reads_last_write_partial",
    "Verif.Synced.C27_plain_array",
    "Verif.Synced.C27_read_after_write",
    "Verif.Synced.C27_read_after_fill",
    "Verif.Synced.C27_refuted_clear_with_child",
    "Verif.Synced.C27_refuted_deep_narrow",
    "Verif.Synced.C27_refuted_drop_pending",
    "Verif.Synced.C27_refuted",
    "Verif.Synced.C27_read_has_effect",
    "Verif.Synced.C27_copy_source_lazy"
   ],
   "note": "Full refinement for plain arrays; for families of narrowed arrays under three restrictions, each shown necessary by a refutation."
  },
  {
   "property": "C28",
   "status": "partial",
   "theorems": [
    "Verif.Synced.C28_zeroing_sound",
    "Verif.Synced.C28_zeroing_exact_partial",
    "Verif.Synced.C28_plain_array",
    "Verif.Synced.C28_zeroing_survives_clear",
    "Verif.Synced.C28_fresh_not_zeroing"
   ],
   "note": "Exact for plain arrays; for families under the restrictions of C27. zeroing survives clear()."
  },
  {
   "property": "C29",
   "status": "proved",
   "theorems": [
    "Verif.Alloc.C29_live_disjoint",
    "Verif.Alloc.C29_handles",
    "Verif.Alloc.C29_never_moves"
   ],
   "note": "caching allocator, CPU memory; calls atomic (free_unused_caches takes no mutex, concurrent calls of it outside the model)"
  },
  {
   "property": "C30",
   "status": "proved",
   "theorems": [
    "Verif.Alloc.C30_no_byte_lost",
    "Verif.Alloc.C30_coalesced",
    "Verif.Alloc.C30_accounting",
    "Verif.Alloc.C30_reuses_cache",
    "Verif.Alloc.C30_raises_only_if",
    "Verif.Alloc.C30_free_unused_returns",
    "Verif.Alloc.C30_all_returned",
    "Verif.Alloc.C30_max_cache",
    "Verif.Alloc.C30_round_size"
   ],
   "note": "caching allocator"
  },
  {
   "property": "C31",
   "status": "partial",
   "theorems": [
    "Verif.Solver.setParameters_reset_registers",
    "Verif.Solver.setParameters_noReset_keeps",
    "Verif.Solver.setParameters_noReset_partial",
    "Verif.Solver.setParameters_noReset_not_overwritten",
    "Verif.Solver.removeParameters_unregisters",
    "Verif.Solver.clearParameters_unregisters"
   ],
   "note": "reset=True proved in full; reset=False refuted as documented (an existing key keeps its old variable), proved when re-registered keys carry the same variable."
  },
  {
   "property": "C32",
   "status": "partial",
   "theorems": [
    "Verif.Solver.update_hooks_partial",
    "Verif.Solver.post_hook_runs_before_update"
   ],
   "note": "Each computed parameter gets its pre and post hooks once, both before its update; the post-after-update order is refuted."
  },
  {
   "property": "C33",
   "status": "proved",
   "theorems": [
    "Verif.ND.C33_size",
    "Verif.ND.C33_strides",
    "Verif.ND.C33_ndi_strides",
    "Verif.ND.C33_offset",
    "Verif.ND.C33_bijection",
    "Verif.ND.C33_row_major",
    "Verif.ND.C33_increment",
    "Verif.ND.C33_iterate",
    "Verif.ND.C33_expand"
   ],
   "note": ""
  },
  {
   "property": "C34",
   "status": "partial",
   "theorems": [
    "Verif.Rnn.pad_pack_roundtrip_partial",
    "Verif.Rnn.sequences_recovered_partial",
    "Verif.Rnn.pad_pack_sorted",
    "Verif.Rnn.pack_layout",
    "Verif.Rnn.unpack_layout",
    "Verif.Rnn.batch_sizes_spec",
    "Verif.Rnn.lengths_recovered",
    "Verif.Rnn.padSequence_spec",
    "Verif.Rnn.padPacked_raises",
    "Verif.Rnn.padding_value_ignored",
    "Verif.Rnn.empty_sequence_lost",
    "Verif.Rnn.long_axis_reads_garbage",
    "Verif.Rnn.unsorted_mixes"
   ],
   "note": "Proved for padding value 0, non-empty sequences and a time axis equal to the longest length, sorted or with enforce_sorted=False; each hypothesis is shown necessary by a refutation."
  },
  {
   "property": "C35",
   "status": "proved",
   "theorems": [
    "Verif.Train.C35_update",
    "Verif.Train.C35_scale",
    "Verif.Train.C35_growth_after_clean",
    "Verif.Train.C35_clean_schedule",
    "Verif.Train.C35_interval_refuted"
   ],
   "note": "The documented interval N is refuted: growth at the (N+2)nd clean update, then every N+1."
  },
  {
   "property": "C36",
   "status": "partial",
   "theorems": [
    "Verif.ModuleTree.C36_listing",
    "Verif.ModuleTree.C36_addressing",
    "Verif.ModuleTree.C36_update_parameter",
    "Verif.ModuleTree.C36_round_trip_partial",
    "Verif.ModuleTree.C36_shared_round_trip_refutation",
    "Verif.ModuleTree.C36_at_name_refutation"
   ],
   "note": "Listing, addressing and update proved for every tree with '/'-free attribute names and parameter names not starting with '@'; the round trip needs that no variable is registered in two places and is refuted otherwise (load_parameters leaves the second place with the old variable)."
  },
  {
   "property": "C37",
   "status": "proved",
   "theorems": [
    "C37_save_load_roundtrip"
   ],
   "note": "Byte formats (protobuf, HDF5) are not modelled; the record sequence is."
  },
  {
   "property": "C38",
   "status": "proved",
   "theorems": [
    "C38_csv_epochs"
   ],
   "note": ""
  },
  {
   "property": "C39",
   "status": "proved",
   "theorems": [
    "Verif.Monitor.C39_time_accounting",
    "Verif.Monitor.C39_time_lines",
    "Verif.Monitor.C39_image_saved"
   ],
   "note": ""
  },
  {
   "property": "C40",
   "status": "proved",
   "theorems": [
    "Verif.Index.C40_slice_backward"
   ],
   "note": "Values in Int; hypotheses = bounds covered as in C18."
  },
  {
   "property": "C41",
   "status": "proved",
   "theorems": [
    "Verif.Nnb.C41_roundtrip"
   ],
   "note": "Reader = specification written independently of the exporter."
  },
  {
   "property": "C42",
   "status": "proved",
   "theorems": [
    "Verif.Nnb.Fixed.C42_quantization",
    "Verif.Nnb.Fixed.C42_clipped",
    "Verif.Nnb.Fixed.C42_refuted_fp_check",
    "Verif.Nnb.Fixed.C42_finest",
    "Verif.Nnb.Fixed.C42_fits"
   ],
   "note": "Rational parameters, exact log2."
  },
  {
   "property": "C43",
   "status": "proved",
   "theorems": [
    "Verif.Graph.forward_ok"
   ],
   "note": "fields setup, setup_once of PassOk."
  },
  {
   "property": "C44",
   "status": "proved",
   "theorems": [
    "Verif.Graph.forwardAll_ok"
   ],
   "note": ""
  },
  {
   "property": "C45",
   "status": "partial",
   "theorems": [
    "Verif.Graph.autoforward_backward_ok_partial",
    "Verif.Graph.autoforward_backward_refuted"
   ],
   "note": "Refuted when forward() is called during construction."
  },
  {
   "property": "C46",
   "status": "partial",
   "theorems": [
    "Verif.Graph.refcount_partial",
    "Verif.Graph.refcount_lower",
    "Verif.Graph.refsOk_of_run",
    "Verif.Graph.refcount_refuted"
   ],
   "note": "Exactness refuted; exact formula proved."
  },
  {
   "property": "C47",
   "status": "partial",
   "theorems": [
    "Verif.Inplace.C47_forward_partial",
    "Verif.Inplace.C47_refuted",
    "Verif.Inplace.C47_single_view_detected",
    "Verif.Inplace.C47_auto_forward_refuted"
   ],
   "note": "Proved for every graph without a view of a view and with need_grad as propagated; the general claim is refuted by a four-function graph and, for auto_forward, by a two-function one. One in-place input per function; distinct leaf arrays."
  },
  {
   "property": "C48",
   "status": "proved",
   "theorems": [
    "Verif.Graph.backward_derivative",
    "Verif.Graph.gradient_adjoint"
   ],
   "note": ""
  },
  {
   "property": "C49",
   "status": "partial",
   "theorems": [
    "Verif.Synced.C49_clear_called",
    "Verif.Synced.C49_modification_count_partial",
    "Verif.Synced.C49_modification_count_refuted",
    "Verif.Synced.C49_read_resets_clear_called",
    "Verif.Synced.C49_child_clear_called"
   ],
   "note": "clear_called exact; modification_count is min(1, documented value): refuted as documented."
  },
  {
   "property": "C50",
   "status": "partial",
   "theorems": [
    "Verif.Alloc.C50_naive_counter_partial",
    "Verif.Alloc.C50_naive_counter_refuted"
   ],
   "note": "the claim as stated is false; the partial theorem says what the counter is"
  },
  {
   "property": "C51",
   "status": "partial",
   "theorems": [
    "Verif.Solver.update_never_misses_a_state",
    "Verif.Solver.states_exactly_parameters_partial",
    "Verif.Solver.setParameters_reset_fresh_state_partial",
    "Verif.Solver.state_sizes_match_partial",
    "Verif.Solver.iteration_count_partial",
    "Verif.Solver.update_counts",
    "Verif.Solver.tick_saturates",
    "Verif.Solver.tick_wraps",
    "Verif.Solver.removed_sgd_keeps_state",
    "Verif.Solver.sgd_reset_keeps_count",
    "Verif.Solver.noReset_breaks_sizes"
   ],
   "note": "Proved for every class whose remove_state_impl erases and histories without reset=False shape changes; refuted for Sgd and for reset=False with another shape."
  },
  {
   "property": "C52",
   "status": "partial",
   "theorems": [
    "Verif.Solver.weightDecay_fused_lazy",
    "Verif.Solver.fused_rate_is_promised",
    "Verif.Solver.weightDecay_unfused_eager",
    "Verif.Solver.raising_update_keeps_rate"
   ],
   "note": "Proved for histories in which no update() raises; refuted otherwise."
  },
  {
   "property": "C53",
   "status": "proved",
   "theorems": [
    "Verif.Solver.update_steps_each_once",
    "Verif.Solver.update_order_irrelevant",
    "Verif.Solver.scaleGrad_scales",
    "Verif.Solver.checkGrad_exact"
   ],
   "note": "For rules that raise for no parameter and distinct variables."
  },
  {
   "property": "C54",
   "status": "partial",
   "theorems": [
    "Verif.Solver.loadStates_saveStates_partial",
    "Verif.Solver.loadStates_mixes_prefixes",
    "Verif.Solver.loadStates_protobuf",
    "Verif.Solver.setStates_leaks_names"
   ],
   "note": "h5 proved when no name is a prefix of another, refuted otherwise; protobuf proved for states with common array names (true of every solver class), refuted otherwise."
  },
  {
   "property": "C55",
   "status": "proved",
   "theorems": [
    "Verif.Solver.clip_norm_le",
    "Verif.Solver.clip_unchanged",
    "Verif.Solver.clip_direction",
    "Verif.Solver.clip_idempotent",
    "Verif.Solver.clip_negative_reverses"
   ],
   "note": "Over the reals; the negative-c case is shown to reverse the direction."
  },
  {
   "property": "C56",
   "status": "partial",
   "theorems": [
    "Verif.Solver.adabound_within_bounds",
    "Verif.Solver.adabound_tends_to_final_lr",
    "Verif.Solver.amsbound_lower_bound_partial",
    "Verif.Solver.amsbound_not_bounded",
    "Verif.Solver.amsbound_not_tends_to_final_lr"
   ],
   "note": "Proved for AdaBound; refuted for AMSBound (upper bound 1/gamma*t)."
  },
  {
   "property": "C57",
   "status": "proved",
   "theorems": [
    "Verif.Solver.zeroGrad_zeroes",
    "Verif.Solver.update_after_zeroGrad_noop",
    "Verif.Solver.setHook_spec",
    "Verif.Solver.unsetHook_spec",
    "Verif.Solver.hooks_keys_distinct"
   ],
   "note": ""
  },
  {
   "property": "C58",
   "status": "proved",
   "theorems": [
    "Verif.Solver.adam_denominator_pos",
    "Verif.Solver.biasCorr_pos",
    "Verif.Solver.graves_variance_nonneg",
    "Verif.Solver.adadelta_radicand_nonneg",
    "Verif.Solver.amsgrad_vhat_monotone",
    "Verif.Solver.lars_never_raises"
   ],
   "note": "Over the reals; floating point rounding is not modelled."
  },
  {
   "property": "C59",
   "status": "proved",
   "theorems": [
    "Verif.Solver.adagrad_step_le",
    "Verif.Solver.rmsprop_step_le",
    "Verif.Solver.adam_step_le",
    "Verif.Solver.adamax_step_le",
    "Verif.Solver.lion_step_le"
   ],
   "note": "Over the reals."
  },
  {
   "property": "C60",
   "status": "proved",
   "theorems": [
    "Verif.Solver.adam_scale_invariant",
    "Verif.Solver.amsgrad_scale_invariant",
    "Verif.Solver.adamax_scale_invariant",
    "Verif.Solver.adagrad_scale_invariant",
    "Verif.Solver.rmsprop_scale_invariant",
    "Verif.Solver.lion_scale_invariant",
    "Verif.Solver.adam_training_scale_invariant"
   ],
   "note": "Over the reals."
  },
  {
   "property": "C61",
   "status": "proved",
   "theorems": [
    "Verif.Solver.momentum_zero_is_sgd",
    "Verif.Solver.nesterov_is_lookahead",
    "Verif.Solver.decoupled_zero_decay",
    "Verif.Solver.adamw_decoupled",
    "Verif.Solver.sgd_weight_decay",
    "Verif.Solver.zero_lr_freezes",
    "Verif.Solver.zero_lr_momentum_moves"
   ],
   "note": "Over the reals."
  },
  {
   "property": "C62",
   "status": "proved",
   "theorems": [
    "Verif.Solver.lamb_step_norm"
   ],
   "note": "Over the reals."
  },
  {
   "property": "C63",
   "status": "proved",
   "theorems": [
    "Verif.Solver.training_is_elementwise",
    "Verif.Solver.trained_elementwise",
    "Verif.Solver.sgd_trains",
    "Verif.Solver.momentum_trains",
    "Verif.Solver.nesterov_trains",
    "Verif.Solver.adagrad_trains",
    "Verif.Solver.rmsprop_trains",
    "Verif.Solver.adam_trains",
    "Verif.Solver.adamw_trains",
    "Verif.Solver.lion_trains"
   ],
   "note": "Over the reals, up to 2^32-2 rounds (the count saturates there)."
  },
  {
   "property": "C64",
   "status": "proved",
   "theorems": [
    "Verif.Rnn.pack_adjoint",
    "Verif.Rnn.backward_accum"
   ],
   "note": ""
  },
  {
   "property": "C65",
   "status": "proved",
   "theorems": [
    "Verif.ModuleTree.C65_training",
    "Verif.ModuleTree.C65_attached_later_refutation"
   ],
   "note": "Modules attached later keep their own flag."
  },
  {
   "property": "C66",
   "status": "partial",
   "theorems": [
    "Verif.ModuleTree.C66_attribute_partial",
    "Verif.ModuleTree.C66_attribute_refutation"
   ],
   "note": "Fails when a Module is assigned over a plain value (old value still read) and when a plain value is assigned over a submodule (still listed as submodule)."
  },
  {
   "property": "C67",
   "status": "proved",
   "theorems": [
    "Verif.HalfFloat.C67_to_float_exact",
    "Verif.HalfFloat.C67_round_trip"
   ],
   "note": "All patterns; also shows that returning the bit pattern as a float value (return type U of upconvert_to) is harmless."
  },
  {
   "property": "C68",
   "status": "partial",
   "theorems": [
    "Verif.HalfFloat.C68_round_normal",
    "Verif.HalfFloat.C68_round_subnormal_partial",
    "Verif.HalfFloat.C68_subnormal_refutation",
    "Verif.HalfFloat.C68_monotone"
   ],
   "note": "Correct rounding proved for |x| >= 2^-14 (normal range, overflow, NaN, inf) and monotonicity everywhere; below 2^-14 correct rounding is refuted (bits dropped before rounding, flush to zero below 2^-24) and replaced by error bounds."
  },
  {
   "property": "C69",
   "status": "partial",
   "theorems": [
    "Verif.HalfFloat.C69_negate",
    "Verif.HalfFloat.C69_equality_partial",
    "Verif.HalfFloat.C69_equality_refutation",
    "Verif.HalfFloat.C69_max_refutation"
   ],
   "note": "Negation proved; == is bitwise (-0 != +0, NaN == NaN); numeric_limits max is 32768, not 65504."
  },
  {
   "property": "C70",
   "status": "partial",
   "theorems": [
    "Verif.NNGrad.nn_grad_sum_partial",
    "Verif.NNGrad.nn_grad_outputs_partial",
    "Verif.NNGrad.sens_exists",
    "Verif.NNGrad.sens_unique",
    "Verif.NNGrad.nn_grad_same_parent_refuted",
    "Verif.NNGrad.nn_grad_inner_output_refuted",
    "Verif.NNGrad.nn_grad_self_refuted",
    "Verif.NNGrad.nn_grad_leaf_output_refuted",
    "Verif.NNGrad.nn_grad_duplicate_refuted",
    "Verif.NNGrad.nn_grad_shared_parameter_refuted",
    "Verif.NNGrad.nn_grad_outputs_refuted"
   ],
   "note": "Proved for every graph with outputs computed by different functions, consistent ranks, distinct inputs that are not outputs, leaf grad_outputs. The full claim is false; refuted: two outputs of one function (the first is lost), an output used by another output before any forward (KeyError), dy/dy = 0, leaf output (AttributeError), repeated inputs, a parameter shared by two parametric functions (unlinked variables: only one use counted), grad_outputs that depend on an input."
  },
  {
   "property": "C71",
   "status": "partial",
   "theorems": [
    "Verif.NNGrad.nn_grad_eq_backward_partial",
    "Verif.NNGrad.nn_grad_need_grad_off",
    "Verif.NNGrad.nn_grad_need_grad_refuted"
   ],
   "note": "Equality proved by combining the nn.grad model with the model of CgVariable::backward; false when an inner output of a multi-output function has need_grad False (nn.grad lets the gradient through, backward does not)."
  },
  {
   "property": "C72",
   "status": "partial",
   "theorems": [
    "Verif.Fn.C72_transpose_partial",
    "Verif.Fn.C72_transpose_grad_partial",
    "Verif.Fn.C72_refuted_negative"
   ],
   "note": "Proved for non-negative axes and non-empty arrays; negative axes are refuted (setup copies axes before refining them)."
  },
  {
   "property": "C73",
   "status": "proved",
   "theorems": [
    "Verif.Fn.C73_broadcast",
    "Verif.Fn.C73_broadcast_grad"
   ],
   "note": "All shapes; gradient over any commutative semiring."
  },
  {
   "property": "C74",
   "status": "partial",
   "theorems": [
    "Verif.Fn.C74_concatenate",
    "Verif.Fn.C74_concatenate_backward",
    "Verif.Fn.C74_stack",
    "Verif.Fn.C74_stack_backward",
    "Verif.Fn.C74_split",
    "Verif.Fn.C74_split_backward",
    "Verif.Fn.C74_refuted_ndim",
    "Verif.Fn.C74_concatenate_rejects"
   ],
   "note": "Placement and gradients proved for all compatible inputs; rejection of incompatible ranks is refuted: concatenate accepts inputs of different rank and writes out of bounds."
  },
  {
   "property": "C75",
   "status": "partial",
   "theorems": [
    "Verif.Fn.C75_flip",
    "Verif.Fn.C75_flip_grad",
    "Verif.Fn.C75_shift_nearest",
    "Verif.Fn.C75_shift_reflect_partial",
    "Verif.Fn.C75_refuted_reflect",
    "Verif.Fn.C75_shift_grad"
   ],
   "note": "flip and nearest proved for everything; reflect proved for shifts of at most twice the extent, refuted beyond."
  },
  {
   "property": "C76",
   "status": "proved",
   "theorems": [
    "Verif.Fn.C76_pad",
    "Verif.Fn.C76_pad_grad"
   ],
   "note": "Non-empty output; modes reflect and repeat on non-empty inputs (the do-while kernel runs once even on empty arrays)."
  },
  {
   "property": "C77",
   "status": "proved",
   "theorems": [
    "Verif.Fn.C77_tile",
    "Verif.Fn.C77_tile_grad",
    "Verif.Fn.C77_tile_rejects"
   ],
   "note": "Non-empty inputs."
  },
  {
   "property": "C78",
   "status": "partial",
   "theorems": [
    "Verif.Fn.C78_gather",
    "Verif.Fn.C78_gather_grad",
    "Verif.Fn.C78_gather_rejects",
    "Verif.Fn.C78_refuted_batch_dims",
    "Verif.Fn.C78_gather_nd",
    "Verif.Fn.C78_gather_nd_grad",
    "Verif.Fn.C78_gather_nd_rejects",
    "Verif.Fn.C78_gather_rejects_axis"
   ],
   "note": "Holds in full when batch_dims <= axis and the batch is not empty; refuted when batch_dims > axis (accepted by setup, then divides by zero). gather_nd with zero index rows throws vector::at and is excluded (M not empty)."
  },
  {
   "property": "C79",
   "status": "partial",
   "theorems": [
    "Verif.Fn.C79_scatter_nd_add",
    "Verif.Fn.C79_scatter_nd_add_grad",
    "Verif.Fn.C79_scatter_nd_set",
    "Verif.Fn.C79_scatter_nd_set_grad_partial",
    "Verif.Fn.C79_refuted_duplicate",
    "Verif.Fn.C79_refuted_out_add",
    "Verif.Fn.C79_refuted_out_grad",
    "Verif.Fn.C79_out_grad_data",
    "Verif.Fn.C79_scatter_add_setup",
    "Verif.Fn.C79_scatter_add",
    "Verif.Fn.C79_scatter_add_grad",
    "Verif.Fn.C79_scatter_add_rejects",
    "Verif.Fn.C79_refuted_axis",
    "Verif.Fn.C79_out_grad_lost"
   ],
   "note": "Forward and scatter_add in full. Refuted: gradient of scatter_nd without add and repeated positions; with out and add and repeated positions; gradient of out is never written; scatter_add accepts axes outside the rank."
  },
  {
   "property": "C80",
   "status": "partial",
   "theorems": [
    "Verif.Fn.C80_embed",
    "Verif.Fn.C80_refuted_embed_unchecked",
    "Verif.Fn.C80_one_hot",
    "Verif.Fn.C80_where",
    "Verif.Fn.C80_refuted_where_empty"
   ],
   "note": "In full for valid table indices and a non-empty condition; refuted: embed does not check indices (out-of-bounds access for every invalid one), where divides by zero on an empty condition."
  },
  {
   "property": "C81",
   "status": "proved",
   "theorems": [
    "Verif.Fn.C81_setup",
    "Verif.Fn.C81_forward",
    "Verif.Fn.C81_backward"
   ],
   "note": "For every operation and gradient formula over any additive commutative monoid; unbounded integers, no rounding."
  },
  {
   "property": "C82",
   "status": "proved",
   "theorems": [
    "Verif.Elem.C82_unary",
    "Verif.Elem.C82_kink",
    "Verif.Elem.C82_dependence",
    "Verif.Elem.C82_binary",
    "Verif.Elem.C82_binary_dependence",
    "Verif.Elem.C82_tie",
    "Verif.Elem.C82_unary_kernel",
    "Verif.Elem.C82_binary_kernel",
    "Verif.Elem.C82_chain",
    "Verif.Elem.C82_linear"
   ],
   "note": "Over the real numbers (no rounding); 40 unary and 8 binary functions."
  },
  {
   "property": "C83",
   "status": "partial",
   "theorems": [
    "Verif.Elem.C83_setup",
    "Verif.Elem.C83_softmax",
    "Verif.Elem.C83_log_softmax",
    "Verif.Elem.C83_distribution",
    "Verif.Elem.C83_stable",
    "Verif.Elem.C83_backward",
    "Verif.Elem.C83_sce",
    "Verif.Elem.C83_sce_backward",
    "Verif.Elem.C83_label_unchecked_partial",
    "Verif.Elem.C83_cce",
    "Verif.Elem.C83_cce_clipped_partial"
   ],
   "note": "Fully proved for softmax and log_softmax; the cross entropies for labels below the number of classes and (categorical) probabilities above the threshold, with the failing cases refuted by witnesses."
  },
  {
   "property": "C84",
   "status": "partial",
   "theorems": [
    "Verif.Elem.C84_values",
    "Verif.Elem.C84_backward",
    "Verif.Elem.C84_negative_epsilon_partial",
    "Verif.Elem.C84_sigmoid_cross_entropy",
    "Verif.Elem.C84_binary_cross_entropy",
    "Verif.Elem.C84_binary_clipped_partial",
    "Verif.Elem.C84_kl_forward",
    "Verif.Elem.C84_kl_backward_partial",
    "Verif.Elem.C84_kl_wrong_partial",
    "Verif.Elem.C84_top_n_error",
    "Verif.Elem.C84_binary_error"
   ],
   "note": "Refuted for kl_multinomial (gradient formulas do not match the stabilised forward), for clipped binary cross entropy and for a negative epsilon; proved for everything else."
  },
  {
   "property": "C85",
   "status": "partial",
   "theorems": [
    "Verif.Elem.C85_setup_partial",
    "Verif.Elem.C85_resetup",
    "Verif.Elem.C85_mixed_axes_refuted",
    "Verif.Elem.C85_empty_axes_refuted",
    "Verif.Elem.C85_stale_transpose_refuted",
    "Verif.Elem.C85_matrix",
    "Verif.Elem.C85_values",
    "Verif.Elem.C85_max_partial",
    "Verif.Elem.C85_max_refuted",
    "Verif.Elem.C85_min",
    "Verif.Elem.C85_sum_mean_backward",
    "Verif.Elem.C85_prod_backward_partial",
    "Verif.Elem.C85_prod_refuted",
    "Verif.Elem.C85_max_backward_partial",
    "Verif.Elem.C85_min_backward_partial"
   ],
   "note": "Over exact reals. Full statement false for mixed-sign axes, empty axes, stale transposes, magnitudes beyond 1e8 and prod at zeros (refuted by witnesses)."
  },
  {
   "property": "C86",
   "status": "partial",
   "theorems": [
    "Verif.Recompute.forward_backward_recompute_partial",
    "Verif.Recompute.recompute_ok",
    "Verif.Recompute.C86_own_output_lost",
    "Verif.Recompute.C86_random_outside_raises"
   ],
   "note": "In-place functions, inactive inputs, fallback functions and clear_buffer=True in forward are excluded; the two side conditions (own, setup) are shown necessary by refutations."
  },
  {
   "property": "C87",
   "status": "partial",
   "theorems": [
    "Verif.Elem.C87_affine_setup",
    "Verif.Elem.C87_affine",
    "Verif.Elem.C87_affine_grad",
    "Verif.Elem.C87_affine_accum",
    "Verif.Elem.C87_affine_empty_partial",
    "Verif.Elem.C87_bmm_setup",
    "Verif.Elem.C87_bmm",
    "Verif.Elem.C87_bmm_grad"
   ],
   "note": "Complete over the reals except the refuted empty inner product (setup crashes). Rounding is not modelled."
  },
  {
   "property": "C88",
   "status": "partial",
   "theorems": [
    "Verif.Elem.C88_conv_setup",
    "Verif.Elem.C88_conv_setup_wf",
    "Verif.Elem.Conv.C88_conv",
    "Verif.Elem.Conv.C88_conv_grad",
    "Verif.Elem.Conv.C88_conv_flags",
    "Verif.Elem.C88_out_size",
    "Verif.Elem.C88_out_size_refuted"
   ],
   "note": "Everything but the refuted acceptance of kernels that do not fit; channel_last (rejected by the CPU function) and negative strides/dilations are outside the model; reals instead of floats."
  },
  {
   "property": "C89",
   "status": "partial",
   "theorems": [
    "Verif.Elem.C89_deconv_setup",
    "Verif.Elem.C89_deconv_setup_wf_partial",
    "Verif.Elem.Conv.C89_deconv",
    "Verif.Elem.Conv.C89_deconv_grad",
    "Verif.Elem.Conv.C89_deconv_flags",
    "Verif.Elem.C89_channels_unchecked",
    "Verif.Elem.C89_negative_output_padding"
   ],
   "note": "Values and gradients for non-negative output padding and non-empty spatial axes with matching channels; the two refutations show the checks setup lacks."
  },
  {
   "property": "C90",
   "status": "partial",
   "theorems": [
    "Verif.Elem.Pool.C90_max_partial",
    "Verif.Elem.Pool.C90_sum",
    "Verif.Elem.Pool.C90_average_partial",
    "Verif.Elem.Pool.C90_sum_average_grad",
    "Verif.Elem.Pool.C90_max_grad_partial",
    "Verif.Elem.C90_setup",
    "Verif.Elem.C90_setup_wf",
    "Verif.Elem.C90_out_size",
    "Verif.Elem.C90_windows",
    "Verif.Elem.C90_padding_window",
    "Verif.Elem.C90_padding_window_reads_outside"
   ],
   "note": "Everything for non-empty windows (C90_windows: guaranteed when 0 <= pad < kernel and the axes are not empty); windows in the padding are refuted. Max-pooling gradients where each window has a strict maximum. Reals instead of floats; channel_last is rejected by the CPU functions."
  },
  {
   "property": "C91",
   "status": "partial",
   "theorems": [
    "Verif.Func.C91_shapes_partial",
    "Verif.Func.C91_shapes_plain_partial",
    "Verif.Func.C91_no_setup",
    "Verif.Func.C91_output_changed",
    "Verif.Func.C91_array_class",
    "Verif.Func.C91_zero_grad",
    "Verif.Func.C91_failed_setup",
    "Verif.Func.C91_fallback_not_used"
   ],
   "note": "Proved except after a setup that threw and for a fall-back made during a re-setup; both refuted by witnesses (C91_failed_setup, C91_fallback_not_used)."
  },
  {
   "property": "C92",
   "status": "partial",
   "theorems": [
    "Verif.Elem.C92_sort",
    "Verif.Elem.C92_sort_perm",
    "Verif.Elem.C92_setup",
    "Verif.Elem.C92_sort_grad_partial",
    "Verif.Elem.C92_sort_grad_refuted"
   ],
   "note": "Order, permutation, index and setup are proved for every std::sort. The gradient is the VJP only for permutations that are involutions; the refuted theorem shows the code's gradient is wrong for 2,3,1. NaN excluded (exact reals)."
  },
  {
   "property": "C93",
   "status": "partial",
   "theorems": [
    "Verif.Elem.C93_top_k_data",
    "Verif.Elem.C93_selection",
    "Verif.Elem.C93_setup",
    "Verif.Elem.C93_top_k_data_grad_partial",
    "Verif.Elem.C93_keep_grad",
    "Verif.Elem.C93_keep_grad_refuted",
    "Verif.Elem.C93_top_k_grad"
   ],
   "note": "Selection proved for every heap implementation meeting the C++ standard. The gradient with reduce=False is refuted as a VJP (straight-through). Exact reals, NaN excluded."
  },
  {
   "property": "C94",
   "status": "proved",
   "theorems": [
    "Verif.Elem.C94_searchsorted",
    "Verif.Elem.C94_setup",
    "Verif.Elem.C94_setup_only"
   ],
   "note": "Exact reals; int overflow of the indices not modelled; an empty innermost axis or 0-d arrays (undefined behaviour in the code) are rejected by the model."
  },
  {
   "property": "C95",
   "status": "proved",
   "theorems": [
    "Verif.Elem.C95_setup",
    "Verif.Elem.C95_fixed_point_quantize",
    "Verif.Elem.C95_idempotent",
    "Verif.Elem.C95_fixed_point_grad",
    "Verif.Elem.C95_pow2_setup",
    "Verif.Elem.C95_pow2_quantize",
    "Verif.Elem.C95_pow2_grad"
   ],
   "note": "Exact reals; the int() conversion and 1 << n are modelled without overflow (bit widths up to 31)."
  },
  {
   "property": "C96",
   "status": "proved",
   "theorems": [
    "Verif.Elem.C96_quantize_linear",
    "Verif.Elem.C96_rounding",
    "Verif.Elem.C96_range",
    "Verif.Elem.C96_round_trip",
    "Verif.Elem.C96_rerun",
    "Verif.Elem.C96_quantize_grad",
    "Verif.Elem.C96_type_range"
   ],
   "note": "Exact reals; a dtype other than BYTE/UBYTE leaves the range uninitialised in the code and is not modelled; an unknown rounding mode rounds nothing (modelled)."
  },
  {
   "property": "C97",
   "status": "proved",
   "theorems": [
    "Verif.Elem.C97_min_max_quantize",
    "Verif.Elem.C97_zero"
   ],
   "note": "Exact reals; the reductions feeding the range (Min/Max) are parameters; gradients of the range not modelled."
  },
  {
   "property": "C98",
   "status": "proved",
   "theorems": [
    "Verif.Elem.C98_setup",
    "Verif.Elem.C98_prune",
    "Verif.Elem.C98_prune_grad"
   ],
   "note": "Exact reals; empty arrays (out-of-bounds read in the code) rejected by the model."
  },
  {
   "property": "C99",
   "status": "partial",
   "theorems": [
    "Verif.Lms.c99_memory_bound_partial",
    "Verif.Lms.c99_two_dtypes"
   ],
   "note": "Proved for every recorded order in which each array has one dtype and what is touched before the first function fits. Without the dtype condition the claim is false: c99_two_dtypes is a recorded order on which the self-check of schedule() fails."
  }
 ]
}