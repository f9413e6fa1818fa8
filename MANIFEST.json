{
 "claims": [
  {
   "property": "C01",
   "status": "proved",
   "theorems": [
    "Hila.C01_unique_rank_and_slot",
    "Hila.C01_every_slot_filled",
    "Hila.C01_loop_ranges",
    "Hila.C01_plain_order_roundtrip",
    "Hila.C01_global_coordinates"
   ],
   "note": "Standard layout on one lattice, both storage orders; 32-bit overflow, SUBNODE_LAYOUT and GPU_OVERLAP_COMM index maps are not modelled."
  },
  {
   "property": "C02",
   "status": "proved",
   "theorems": [
    "Hila.C02_rank_iff_box",
    "Hila.C02_box_valid",
    "Hila.C02_no_empty_rank",
    "Hila.C02_site_counts_add_up"
   ],
   "note": "For every lattice size and division, dividing or not; the rank map is assumed to be a bijection (proved for create_remap under C37)."
  },
  {
   "property": "C03",
   "status": "proved",
   "theorems": [
    "Hila.C03_neighbour_is_periodic",
    "Hila.C03_gather_reads_neighbour"
   ],
   "note": "Standard periodic gather, CPU back end, EVEN_SITES_FIRST, any dimension, lattice size and division. The MPI transport itself (message delivered unchanged) is an assumption."
  },
  {
   "property": "C04",
   "status": "proved",
   "theorems": [
    "Hila.C04_expected_is_sent",
    "Hila.C04_sent_is_expected",
    "Hila.C04_assert_holds",
    "Hila.C04_single_partner",
    "Hila.C04_one_sender_one_receiver",
    "Hila.C04_order",
    "Hila.C04_sitelist_entries",
    "Hila.C04_halo_slots"
   ],
   "note": "Tables built independently on each rank are shown to pair up; the transport is assumed reliable."
  },
  {
   "property": "C05",
   "status": "partial",
   "theorems": [
    "Hila.C05_reads_latest_partial",
    "Hila.C05_all_gathers_any_extent",
    "Hila.C05_stale_halo"
   ],
   "note": "True when every extent divided between ranks is even (C05_reads_latest_partial), and for any extents when gathers use ALL (C05_all_gathers_any_extent). False of the code for parity-restricted loops across an odd divided extent: C05_stale_halo. Ranks run in lock step; MPI progress is not modelled."
  },
  {
   "property": "C06",
   "status": "proved",
   "theorems": [
    "Hila.C06_shift",
    "Hila.C06_shift_parity_partial",
    "Hila.C06_shift_parity_odd"
   ],
   "note": "shift(v) for ALL is proved for every displacement (C06_shift). The parity-restricted variant needs even extents in the moved directions (C06_shift_parity_partial) and is false otherwise (C06_shift_parity_odd)."
  },
  {
   "property": "C07",
   "status": "proved",
   "theorems": [
    "Hila.C07_get",
    "Hila.C07_gather_any_root",
    "Hila.C07_set",
    "Hila.C07_scatter",
    "Hila.C07_roundtrip",
    "Hila.C07_layout_independent",
    "Hila.C07_set_size_mismatch"
   ],
   "note": "gather_elements (any root), scatter_elements, set_elements, get_elements with index lists, message regrouping, buffer bounds. Coordinates outside of the lattice are a precondition violation of the code and excluded."
  },
  {
   "property": "C08",
   "status": "proved",
   "theorems": [
    "Hila.C08_write",
    "Hila.C08_read",
    "Hila.C08_roundtrip",
    "Hila.C08_two_fields",
    "Hila.C08_zero_buffer_never_ends"
   ],
   "note": "Element = sizeof(T) bytes; text output not modelled. Holds for every buffer of at least one element; C08_zero_buffer_never_ends shows why the guard is needed (element type larger than WRITE_BUFFER_SIZE)."
  },
  {
   "property": "C09",
   "status": "proved",
   "theorems": [
    "Hila.C09_tiled",
    "Hila.C09_same_size"
   ],
   "note": "Field::read(stream, insize); extents of the file divide the lattice extents."
  },
  {
   "property": "C10",
   "status": "partial",
   "theorems": [
    "Hila.C10_immediate_partial",
    "Hila.C10_defined",
    "Hila.C10_delayed_partial",
    "Hila.C10_not_delayed_reuse",
    "Hila.C10_not_assigned_value",
    "Hila.C10_not_delayed_plus",
    "Hila.C10_field_sum",
    "Hila.C10_plain_variables"
   ],
   "note": "Proved for immediate, non-blocking and delayed modes over all histories in which a delayed variable is reassigned after each reduction, value() is read after a loop or reduce, and += is not used outside loops in delayed mode; the code violates the property otherwise (witnesses C10_not_*). Floating-point rounding and MPI itself are not modelled: values form a commutative monoid."
  },
  {
   "property": "C11",
   "status": "partial",
   "theorems": [
    "Hila.C11_immediate_partial",
    "Hila.C11_delayed_sums_partial",
    "Hila.C11_not_delayed_product",
    "Hila.C11_not_two_delayed_products",
    "Hila.C11_not_delayed_assign",
    "Hila.C11_not_nonblocking_assign"
   ],
   "note": "Proved for immediate mode (sums and products) and for delayed sums; delayed products, assignment between a delayed loop and its reduction, and assignment during a non-blocking reduction violate it (witnesses C11_not_*)."
  },
  {
   "property": "C12",
   "status": "proved",
   "theorems": [
    "Hila.C12_joined_selection",
    "Hila.C12_site_index",
    "Hila.C12_no_join"
   ],
   "note": "All lattices, divisions, orders of visits, selections and limits (CPU version, one thread as the generator enforces); each message exchange is a rendezvous of request and answer."
  },
  {
   "property": "C13",
   "status": "partial",
   "theorems": [
    "Hila.C13_values_partial",
    "Hila.C13_not_updated",
    "Hila.C13_not_in_bounds"
   ],
   "note": "Values belong to their coordinates (C13_values_partial: the first value selected at the site); the property fails for repeated selection: value not updated (C13_not_updated), write out of bounds when every site of a rank is selected (C13_not_in_bounds)."
  },
  {
   "property": "C14",
   "status": "partial",
   "theorems": [
    "Hila.C14_min_partial",
    "Hila.C14_max_partial",
    "Hila.C14_integer_values",
    "Hila.C14_not_max_nonpositive",
    "Hila.C14_min_not_located"
   ],
   "note": "Proved whenever some visited value is beyond the initial value of the search; values always right for integer types; floats: false for fields without a value above numeric_limits::min() (C14_not_max_nonpositive) and for min of all-infinite fields. NaN not modelled; CPU version."
  },
  {
   "property": "C15",
   "status": "partial",
   "theorems": [
    "Hila.C15_alloc",
    "Hila.C15_held_blocks",
    "Hila.C15_free",
    "Hila.C15_purge_gpu",
    "Hila.C15_not_purge_cpu"
   ],
   "note": "memory_pool.cpp (the pool that is built): proved for all histories on GPU builds; on CPU builds purge() with a free block stops the program (C15_not_purge_cpu). The system allocator is assumed not to hand out memory twice. The slab allocator backend_gpu/memory_pool2.cpp is not modelled here."
  },
  {
   "property": "C16",
   "status": "proved",
   "theorems": [
    "Hila.C16_labelling_ends",
    "Hila.C16_same_label_iff_connected",
    "Hila.C16_label_is_smallest",
    "Hila.C16_cluster_list",
    "Hila.C16_number_of_clusters",
    "Hila.C16_sites",
    "Hila.C16_area"
   ],
   "note": "labelling ends for every schedule of sites and every mix of old and new neighbour values; labels, cluster list, sizes, types, number, sites() and area() agree with connected components"
  },
  {
   "property": "C17",
   "status": "partial",
   "theorems": [
    "Hila.C17_transforms_lines_partial",
    "Hila.C17_layout_independent_partial",
    "Hila.C17_no_direction_undefined",
    "Hila.C17_in_bounds",
    "Hila.C17_messages_match",
    "Hila.C17_fft_partial",
    "Hila.C17_fft_back_partial"
   ],
   "note": "Proved for every node division without empty ranks, every direction set except the empty one; the empty set reads uninitialised buffers (C17_no_direction_undefined). The library's one-dimensional FFT is taken as the exact sum."
  },
  {
   "property": "C18",
   "status": "partial",
   "theorems": [
    "Hila.C18_reflect_partial",
    "Hila.C18_odd_extent_wrong",
    "Hila.C18_no_direction_undefined"
   ],
   "note": "True for even extents; false for odd extents >= 3 (C18_odd_extent_wrong) and undefined for no direction."
  },
  {
   "property": "C19",
   "status": "partial",
   "theorems": [
    "Hila.C19_always_defined",
    "Hila.C19_accepted_partial",
    "Hila.C19_accepts",
    "Hila.C19_order_independent_partial",
    "Hila.C19_missing_value_accepted",
    "Hila.C19_order_dependent",
    "Hila.C19_unknown_query_accepted"
   ],
   "note": "values exact and order independent when accepted, unknown arguments rejected, valid arguments accepted; a missing value for the last flag and queries of unknown flags are not rejected (proved)"
  },
  {
   "property": "C20",
   "status": "partial",
   "theorems": [
    "Hila.C20_next_token",
    "Hila.C20_label_iff",
    "Hila.C20_get_value",
    "Hila.C20_wrong_label",
    "Hila.C20_override",
    "Hila.C20_override_without_value",
    "Hila.C20_get_list",
    "Hila.C20_get_vector",
    "Hila.C20_integer_partial",
    "Hila.C20_trailing_characters_accepted",
    "Hila.C20_get_complex_partial",
    "Hila.C20_documented_complex_rejected",
    "Hila.C20_get_item"
   ],
   "note": "labels, tokens, lines, comments, lists, vectors, items and overrides proved; numbers with trailing characters are accepted and the documented form of complex numbers is rejected (proved)"
  },
  {
   "property": "C21",
   "status": "proved",
   "theorems": [
    "Hila.C21_shuffle_uniform",
    "Hila.C21_shuffle_perm",
    "Hila.C21_directions_and_parities"
   ],
   "note": "Random choices are arguments (hila::random scaled to 0..j is taken as a number \u2264 j). One-to-one correspondence between choice sequences and permutations for every n; lists of directions and parities equal on all ranks."
  },
  {
   "property": "C22",
   "status": "proved",
   "theorems": [
    "Hila.C22_seeds_distinct",
    "Hila.C22_single_rank_unchanged"
   ],
   "note": "64-bit arithmetic; bound 2^31 ranks, or 2^28 for partitioned runs. CPU path of seed_random with a user seed. The generator itself is not modelled."
  },
  {
   "property": "C23",
   "status": "proved",
   "theorems": [
    "Hila.C23_table_complete"
   ],
   "note": "Every N \u2265 1, with memory accesses checked."
  },
  {
   "property": "C24",
   "status": "partial",
   "theorems": [
    "Hila.C24_crash_outcome",
    "Hila.C24_saved_is_restored",
    "Hila.C24_restores_saved_partial",
    "Hila.C24_never_lost",
    "Hila.C24_mixed_state",
    "Hila.C24_prev_not_used",
    "Hila.C24_initial_configuration_ignored",
    "Hila.C24_lost_without_save_old"
   ],
   "note": "All crash points and histories, file writes cut at any word; crashes between the end of the configuration file and the truncation of the status file excluded in the history theorem, where the property is false (C24_mixed_state); C24_crash_outcome lists all outcomes. A complete configuration always survives on disk with the default save_old (C24_never_lost). Process crashes, not loss of OS buffers."
  },
  {
   "property": "C25",
   "status": "partial",
   "theorems": [
    "Hila.C25_bin_encloses",
    "Hila.C25_outside_no_bin",
    "Hila.C25_bin_hit",
    "Hila.C25_linear_interpolation",
    "Hila.C25_outside_weight",
    "Hila.C25_equidistant",
    "Hila.C25_one_bin",
    "Hila.C25_file_roundtrip_partial",
    "Hila.C25_file_exact",
    "Hila.C25_weight_at_centre",
    "Hila.C25_hard_walls",
    "Hila.C25_weight_continuous",
    "Hila.C25_acceptance",
    "Hila.C25_file_loses_digits",
    "Hila.C25_file_merges_bins"
   ],
   "note": "Bins, hits, interpolation, continuity, hard walls (all histories), acceptance test proved. Weight files: proved up to print/read rounding (7 digits, float); negations with concrete digits lost and merged bins. One-bin tables: negation C25_one_bin."
  },
  {
   "property": "C26",
   "status": "proved",
   "theorems": [
    "Hila.C26_elementary_updates",
    "Hila.C26_no_substeps",
    "Hila.C26_reversible",
    "Hila.C26_momentum_reversal",
    "Hila.C26_action_sum"
   ],
   "note": "All nestings of momentum, leapfrog and O2 integrators. Exact arithmetic; hypothesis that the exponential of -x is the inverse; forces must depend on the fields only (an initial guess from saved solutions would break this at finite solver accuracy)."
  },
  {
   "property": "C27",
   "status": "partial",
   "theorems": [
    "Hila.C27_stopping_criterion",
    "Hila.C27_exact_guess_undefined",
    "Hila.C27_zero_source",
    "Hila.C27_terminates_partial"
   ],
   "note": "The criterion holds whenever the loop stops early. Termination within the dimension is proved in exact arithmetic for nonzero sources and inexact guesses. An exact guess gives 0/0 and a zero source never stops early (both proved)."
  },
  {
   "property": "C28",
   "status": "proved",
   "theorems": [
    "Hila.C28_matrix",
    "Hila.C28_operations",
    "Hila.C28_group",
    "Hila.C28_normalize",
    "Hila.C28_projection",
    "Hila.C28_algebra",
    "Hila.C28_squarenorm_half"
   ],
   "note": "Exact arithmetic. All operations against 2x2 complex matrices, exact characterisation of the group, normalisation (undefined for zero), projection, algebra and conjugations. squarenorm is half of that of the matrix (proved)."
  },
  {
   "property": "C29",
   "status": "partial",
   "theorems": [
    "Hila.C29_overrelax_partial",
    "Hila.C29_hit_involution",
    "Hila.C29_zero_staple_undefined",
    "Hila.C29_dfj",
    "Hila.C29_dfj_keeps"
   ],
   "note": "All N, links, staples for which every SU(2) projection is nonzero; each hit is an involution; SVD-based variant keeps SU(N), its proposal is an involution (singular value decomposition as hypothesis) and it keeps the distribution of the link (C29_dfj_keeps). A zero staple gives 0/0 (proved)."
  },
  {
   "property": "C30",
   "status": "partial",
   "theorems": [
    "Hila.C30_ownership",
    "Hila.C30_block_from",
    "Hila.C30_unblock_to",
    "Hila.C30_block",
    "Hila.C30_unblock_partial",
    "Hila.C30_unblock_elsewhere",
    "Hila.C30_block_by_one",
    "Hila.C30_unblock_halo_partial",
    "Hila.C30_unblock_stale",
    "Hila.C30_block_to_current_partial",
    "Hila.C30_block_to_current_same",
    "Hila.C30_block_to_current_rejected",
    "Hila.C30_block_to_current_stays",
    "Hila.C30_block_gauge"
   ],
   "note": "Ownership for every history of block, unblock and switch_to; block_from, unblock_to, block_to_current_lattice and block_gauge for every visiting order with no access outside the buffer. Proved false of the code: unblock returns to another lattice when a lattice of equal size existed (C30_unblock_elsewhere), block by one is not undone (C30_block_by_one), unblock_to leaves stale halos and an unmatched receive on ranks without blocked sites (C30_unblock_stale), block_to_current_lattice leaves such ranks on the parent lattice (C30_block_to_current_stays)."
  },
  {
   "property": "C31",
   "status": "partial",
   "theorems": [
    "Hila.C31_valid_division",
    "Hila.C31_printed_lengths",
    "Hila.C31_ends_iff",
    "Hila.C31_ends_partial",
    "Hila.C31_never_ends"
   ],
   "note": "A division that is found is proved valid: the division numbers multiply to the number of ranks, every block is non-empty, sizes differ by at most one site and only in one direction, and the printed numbers of long and short blocks are right. Termination is false (C31_never_ends, 2x4 sites on 3 ranks) and characterised exactly by C31_ends_iff; C31_ends_partial covers the case that the ranks divide the volume. setup_layout_vector and setup_layout_simple are not modelled."
  },
  {
   "property": "C32",
   "status": "proved",
   "theorems": [
    "Hila.C32_pmod_representative",
    "Hila.C32_pmod_unique",
    "Hila.C32_mod_periodic",
    "Hila.C32_opposite_direction",
    "Hila.C32_direction_unit_vectors",
    "Hila.C32_direction_arithmetic",
    "Hila.C32_is_direction",
    "Hila.C32_opposite_parity",
    "Hila.C32_step_flips_parity",
    "Hila.C32_periodic_step_parity",
    "Hila.C32_odd_extent_same_parity",
    "Hila.C32_is_divisible"
   ],
   "note": "All of the property holds; for odd extents a step across the boundary keeps the parity, which is stated exactly in C32_periodic_step_parity and witnessed in C32_odd_extent_same_parity. int overflow is not modelled."
  },
  {
   "property": "C33",
   "status": "partial",
   "theorems": [
    "Hila.C33_plaquette_same",
    "Hila.C33_plaquette",
    "Hila.C33_staplesum",
    "Hila.C33_staple",
    "Hila.C33_reversed_staples",
    "Hila.C33_polyakov_line",
    "Hila.C33_polyakov",
    "Hila.C33_long_link",
    "Hila.C33_hmc_polyakov_not_invariant",
    "Hila.C33_staplesum_odd_size"
   ],
   "note": "Plaquette, staples (weighted and unweighted, any parity), reversed staples, Polyakov loop and long links are gauge invariant or covariant for every size, dimension and N; implementations are shown equal to their documented formulas. False for polyakov_loop of hmc/gauge_field.h (C33_hmc_polyakov_not_invariant); staplesum on one parity needs even sizes (C33_staplesum_odd_size)."
  },
  {
   "property": "C34",
   "status": "partial",
   "theorems": [
    "Hila.C34_roundtrip",
    "Hila.C34_rejects_partial",
    "Hila.C34_zero_extent",
    "Hila.C34_negative_extent",
    "Hila.C34_truncated_extent"
   ],
   "note": "Round trip proved for all layouts. Rejection proved for positive 32-bit extents only: zero, negative and 64-bit extents are not rejected by the code (C34_zero_extent, C34_negative_extent, C34_truncated_extent)."
  },
  {
   "property": "C35",
   "status": "partial",
   "theorems": [
    "Hila.C35_one_bin",
    "Hila.C35_field",
    "Hila.C35_total",
    "Hila.C35_queries_partial",
    "Hila.C35_binwidth_partial",
    "Hila.C35_out_of_bounds",
    "Hila.C35_stale",
    "Hila.C35_binwidth_stale",
    "Hila.C35_overflow",
    "Hila.C35_real_field"
   ],
   "note": "Edges, uniqueness of bins, binned sums and spectral densities of real fields are proved for every history. Answers of k() and count() are proved when all parameters are set before the first query; they are stale or read outside the array otherwise (C35_stale, C35_out_of_bounds). Bin numbers beyond int are undefined (C35_overflow)."
  },
  {
   "property": "C36",
   "status": "proved",
   "theorems": [
    "Hila.C36_subvolume",
    "Hila.C36_range_length",
    "Hila.C36_slice",
    "Hila.C36_write_subvolume"
   ],
   "note": "get_subvolume, get_slice, write_subvolume (binary without float conversion)."
  },
  {
   "property": "C37",
   "status": "proved",
   "theorems": [
    "Hila.C37_permutation",
    "Hila.C37_groups",
    "Hila.C37_layout_valid"
   ],
   "note": "Block and trivial map. Writes stay inside the arrays, the two maps are inverse permutations for every group size and division, groups of consecutive ranks are boxes of nodes, and the result of the division search together with the map satisfies the layout hypotheses of the other theorems."
  },
  {
   "property": "C38",
   "status": "partial",
   "theorems": [
    "Hila.C38_add",
    "Hila.C38_sum",
    "Hila.C38_fresh_sum",
    "Hila.C38_mul_partial",
    "Hila.C38_mul_zero",
    "Hila.C38_mul_forever",
    "Hila.C38_mul_undefined",
    "Hila.C38_compare_partial",
    "Hila.C38_compare_double",
    "Hila.C38_compare_int",
    "Hila.C38_unsigned_minus",
    "Hila.C38_unsigned_equal",
    "Hila.C38_compare_wrong"
   ],
   "note": "Sums: exact in the first two levels and an explicit third-order bound, for every sequence, binary format and tie rule (no overflow). Products: bound and termination below half of the range of the integer type; endless or undefined above. Comparisons: right when the second correction of the difference is small; a sum equal to 1 that compares equal to 0 is exhibited; unsigned operands are negated modulo 2^w."
  },
  {
   "property": "C39",
   "status": "proved",
   "theorems": [
    "Hila.C39_hmc_update",
    "Hila.C39_all_rejected",
    "Hila.C39_total_action",
    "Hila.C39_refresh"
   ],
   "note": "Every integrator hierarchy; the random number and exp are parameters; includes histories of rejected updates."
  },
  {
   "property": "C40",
   "status": "proved",
   "theorems": [
    "Hila.C40_tags_in_step",
    "Hila.C40_tags_distinct",
    "Hila.C40_tags_repeat"
   ],
   "note": "Tag counter with every call drawing a tag whether or not the rank communicates; window 401 is sharp."
  },
  {
   "property": "C41",
   "status": "partial",
   "theorems": [
    "Hila.C41_offset_reads_partial",
    "Hila.C41_dangling_reference",
    "Hila.C41_offset_odd_extent"
   ],
   "note": "Proved while the summed offset lengths fit the reserved buffer, for ALL loops on any extents and one-parity loops on even extents. False otherwise: C41_dangling_reference, C41_offset_odd_extent."
  },
  {
   "property": "C42",
   "status": "proved",
   "theorems": [
    "Hila.C42_truncated_rejected",
    "Hila.C42_config_truncated",
    "Hila.C42_config_header_cut"
   ],
   "note": "Field::read by name and config_read: the failure bit of the stream is examined in close_file."
  },
  {
   "property": "C43",
   "status": "partial",
   "theorems": [
    "Hila.C43_linked_sites_same_label_partial",
    "Hila.C43_unlinked_sites_merged"
   ],
   "note": "counterexample: adjacent sites that each touch some link are merged though not linked to each other; positive direction proved"
  },
  {
   "property": "C44",
   "status": "proved",
   "theorems": [
    "Hila.C44_site_classes",
    "Hila.C44_complex_to_real",
    "Hila.C44_real_to_complex",
    "Hila.C44_round_trip"
   ],
   "note": "Exact arithmetic; no empty ranks."
  },
  {
   "property": "C45",
   "status": "partial",
   "theorems": [
    "Hila.C45_direct_iteration",
    "Hila.C45_single_iteration_partial",
    "Hila.C45_single_result_undefined",
    "Hila.C45_canonical_iteration_partial",
    "Hila.C45_canonical_last_bin",
    "Hila.C45_canonical_last_bin_wrong",
    "Hila.C45_canonical_division_by_zero"
   ],
   "note": "Direct iteration over a full sample, single-sample step and canonical differences proved. Negations: single-sample flag never set between checks, last canonical bin off by log of the width, division by zero below 100 iterations. Smooth variant not modelled."
  },
  {
   "property": "C46",
   "status": "partial",
   "theorems": [
    "Hila.C46_save_overwrites",
    "Hila.C46_history_lost",
    "Hila.C46_history_partial",
    "Hila.C46_coefficients_partial",
    "Hila.C46_guess_last_vector",
    "Hila.C46_guess_not_combination",
    "Hila.C46_basis_not_orthogonal"
   ],
   "note": "The elimination solves the projected system when no pivot is small, and a list of two keeps the last two solutions. Longer lists lose solutions, the guess only uses the last vector with a coefficient too large by one, and the basis is not orthogonal (all proved)."
  },
  {
   "property": "C47",
   "status": "partial",
   "theorems": [
    "Hila.C47_exp_is_matrix_exp",
    "Hila.C47_exp_normalised",
    "Hila.C47_log_exp_partial",
    "Hila.C47_log_minus_one",
    "Hila.C47_su2_exp_uninitialised"
   ],
   "note": "Algebra::exp is the matrix exponential; exp(log U) = U except for U = -1, where it is +1 (proved). SU2::exp scales uninitialised components (proved)."
  },
  {
   "property": "C48",
   "status": "partial",
   "theorems": [
    "Hila.C48_heatbath_partial",
    "Hila.C48_heatbath_leaves_group",
    "Hila.C48_kennedy_pendleton"
   ],
   "note": "KennedyPendleton always stays in SU(2). suN_heatbath stays in SU(N) unless 41 trials in a row fail; then it can leave the group (proved with an explicit stream)."
  },
  {
   "property": "C49",
   "status": "proved",
   "theorems": [
    "Hila.C49_inverse",
    "Hila.C49_singular"
   ],
   "note": "Real entries, exact arithmetic."
  },
  {
   "property": "C50",
   "status": "partial",
   "theorems": [
    "Hila.C50_generators",
    "Hila.C50_expand",
    "Hila.C50_project",
    "Hila.C50_roundtrip",
    "Hila.C50_dot",
    "Hila.C50_conjugation",
    "Hila.C50_products_partial",
    "Hila.C50_products_again",
    "Hila.C50_bilinear",
    "Hila.C50_bilinear_array_partial",
    "Hila.C50_bilinear_array_transposed"
   ],
   "note": "Proved over the reals for every N: generators, expand, project, round trips, dot, conjugation, bilinear projections with one and two matrices. False in two places: generator_product_list appends to lists it does not empty, so computing the table twice in the same array writes outside it (C50_products_again); the bilinear projection of an array of matrices uses lambda_j[k][l] where its comment has lambda_j[l][k] (C50_bilinear_array_transposed)."
  },
  {
   "property": "C51",
   "status": "proved",
   "theorems": [
    "Hila.C51_det_lu",
    "Hila.C51_det_laplace",
    "Hila.C51_det"
   ],
   "note": "Exact arithmetic in the real or complex numbers; rounding is not modelled."
  },
  {
   "property": "C52",
   "status": "partial",
   "theorems": [
    "Hila.C52_decompose_partial",
    "Hila.C52_solve_partial",
    "Hila.C52_invert_partial",
    "Hila.C52_decompose_singular",
    "Hila.C52_solve_singular"
   ],
   "note": "Regular matrices, exact arithmetic. For singular matrices the property is false: C52_decompose_singular, C52_solve_singular."
  },
  {
   "property": "C53",
   "status": "partial",
   "theorems": [
    "Hila.C53_eigen_partial",
    "Hila.C53_size_one"
   ],
   "note": "Sizes >= 2, exact arithmetic: U unitary, diagonal exact, off-diagonal bounded by the code's own tolerance or exp(-100) of the norm at the limit of rotations, ordering. Size 1 uses indices without values: C53_size_one. Floating point rounding not modelled."
  },
  {
   "property": "C54",
   "status": "partial",
   "theorems": [
    "Hila.C54_svd_pivot_partial",
    "Hila.C54_svd_partial",
    "Hila.C54_svd_never_converges",
    "Hila.C54_svd_undefined",
    "Hila.C54_singular",
    "Hila.C54_pivot_not_unitary",
    "Hila.C54_pivot_size_one"
   ],
   "note": "Regular matrices, exact arithmetic: A = U S V\u2020, V unitary, S positive, ordering; U unitary to 2.22e-16 for svd (size <= 2 or the redeclared variable keeps its value). False of the code: C54_pivot_not_unitary, C54_svd_never_converges, C54_svd_undefined, C54_singular, C54_pivot_size_one."
  },
  {
   "property": "C55",
   "status": "proved",
   "theorems": [
    "Hila.C55_make_unitary",
    "Hila.C55_make_unitary_singular",
    "Hila.C55_unique",
    "Hila.C55_fix_det",
    "Hila.C55_reunitarize",
    "Hila.C55_reunitarize_singular",
    "Hila.C55_reunitarize_fixes",
    "Hila.C55_right_covariant",
    "Hila.C55_random_su2",
    "Hila.C55_random_su2_zero",
    "Hila.C55_random_su2_onto",
    "Hila.C55_random",
    "Hila.C55_random_onto",
    "Hila.C55_not_left_covariant"
   ],
   "note": "All N >= 1, exact arithmetic. make_unitary characterised uniquely; reunitarize in SU(N), fixed points, right covariance; random in SU(N), onto. Linearly dependent rows divide by zero (shown). The probability distribution of random is not modelled."
  },
  {
   "property": "C56",
   "status": "proved",
   "theorems": [
    "Hila.C56_wilson_line",
    "Hila.C56_short",
    "Hila.C56_covariant",
    "Hila.C56_wilson_line_gauge",
    "Hila.C56_reverse"
   ],
   "note": "Real arithmetic. C56_short: paths with fewer than two steps read outside of the list, so the property holds for two steps or more."
  },
  {
   "property": "C57",
   "status": "proved",
   "theorems": [
    "Hila.C57_wloop",
    "Hila.C57_wloop_from_wl",
    "Hila.C57_wplaq",
    "Hila.C57_wplaq_add",
    "Hila.C57_impr",
    "Hila.C57_wplaq_unique"
   ],
   "note": "Real arithmetic, unitary links. Plaquette, arbitrary closed loop and improved action. At least two directions; with one direction the staple field is never assigned."
  },
  {
   "property": "C58",
   "status": "proved",
   "theorems": [
    "Hila.C58_leaves",
    "Hila.C58_covariant",
    "Hila.C58_action",
    "Hila.C58_action_gauge",
    "Hila.C58_force",
    "Hila.C58_charge_field",
    "Hila.C58_charge_energy",
    "Hila.C58_charge_gauge",
    "Hila.C58_reflect",
    "Hila.C58_charge_reflect"
   ],
   "note": "Real arithmetic, unitary links; the charge in four dimensions (in other dimensions the code returns zero)."
  },
  {
   "property": "C59",
   "status": "partial",
   "theorems": [
    "Hila.C59_divergence",
    "Hila.C59_covariant",
    "Hila.C59_fixpoint",
    "Hila.C59_physical",
    "Hila.C59_decrease",
    "Hila.C59_returned",
    "Hila.C59_converges",
    "Hila.C59_loop",
    "Hila.C59_degauss",
    "Hila.C59_terminates",
    "Hila.C59_returned_not_bound",
    "Hila.C59_diverges_four"
   ],
   "note": "All parts hold except the last: degauss leaves at most 9/4 of the requested violation (C59_degauss), and C59_returned_not_bound shows that the factor is reached, so that the claim of the code that the real violation is smaller than the returned one is false. C59_diverges_four shows that in four dimensions the step diverges. Exact arithmetic."
  },
  {
   "property": "C60",
   "status": "partial",
   "theorems": [
    "Hila.C60_descent",
    "Hila.C60_energy_plaq",
    "Hila.C60_energy_clover",
    "Hila.C60_force_covariant",
    "Hila.C60_zeuthen_not_covariant",
    "Hila.C60_time",
    "Hila.C60_group",
    "Hila.C60_flow_covariant",
    "Hila.C60_tableau",
    "Hila.C60_order",
    "Hila.C60_step_descent",
    "Hila.C60_terminates"
   ],
   "note": "Everything in exact arithmetic with the exact exponential for chexp. The gradient property, the decrease and gauge covariance hold for all modelled actions but Zeuthen, for which covariance is false (C60_zeuthen_not_covariant). Time, group and termination hold for all of them. Bulk_Prevention and Log_Plaq are not modelled. The order of the scheme is proved on commuting directions."
  },
  {
   "property": "C61",
   "status": "partial",
   "theorems": [
    "Hila.C61_chexp_value",
    "Hila.C61_chexp_exact",
    "Hila.C61_size_one",
    "Hila.C61_count_lost",
    "Hila.C61_count_partial",
    "Hila.C61_derivative",
    "Hila.C61_chexp_derivatives",
    "Hila.C61_mult_chexp",
    "Hila.C61_mult_chexpk_fast",
    "Hila.C61_chsexp_wrong",
    "Hila.C61_chsexp_partial"
   ],
   "note": "Value, error bound, derivative and the three functions that use it are proved for every size from 2 on (C61_chexp_value, C61_chexp_exact, C61_derivative, C61_chexp_derivatives, C61_mult_chexp, C61_mult_chexpk_fast). The parts about chsexp and the returned number are false of the code: C61_chsexp_wrong and C61_count_lost, with the cases in which they hold in C61_chsexp_partial and C61_count_partial; size 1 is undefined behaviour (C61_size_one). Arithmetic is exact except for the sum of the stopping test, which is arbitrary."
  },
  {
   "property": "C62",
   "status": "proved",
   "theorems": [
    "Hila.C62_staples",
    "Hila.C62_staple_array",
    "Hila.C62_smear1",
    "Hila.C62_iter",
    "Hila.C62_iter_negative",
    "Hila.C62_list",
    "Hila.C62_listk",
    "Hila.C62_group",
    "Hila.C62_covariant",
    "Hila.C62_force",
    "Hila.C62_force_action",
    "Hila.C62_force_wplaq",
    "Hila.C62_force_k",
    "Hila.C62_force_b_1d"
   ],
   "note": "Exact real arithmetic; the functions chexp, mult_chexp, chexpk and mult_chexpk_fast are parameters that are assumed to be exact (C61 states their errors). A negative number of steps does one step if it is odd. In one dimension get_stout_staples reads outside of its array (proved)."
  },
  {
   "property": "C63",
   "status": "proved",
   "theorems": [
    "Hila.C63_inverse",
    "Hila.C63_action",
    "Hila.C63_positive",
    "Hila.C63_barrier",
    "Hila.C63_gauge",
    "Hila.C63_force",
    "Hila.C63_force_finite"
   ],
   "note": "Exact real and complex arithmetic; a division by zero is the outcome none. The force is proved for unitary links."
  },
  {
   "property": "C64",
   "status": "partial",
   "theorems": [
    "Hila.C64_log_exp_partial",
    "Hila.C64_centre",
    "Hila.C64_near_minus_one"
   ],
   "note": "Positive theorem for angles below sqrt 3, with the exact exponential in place of chexp and exact real arithmetic; the statement for all matrices is disproved (C64_centre, C64_near_minus_one)."
  },
  {
   "property": "C65",
   "status": "partial",
   "theorems": [
    "Hila.C65_log_exists",
    "Hila.C65_plaq_mat",
    "Hila.C65_clover_mat",
    "Hila.C65_covariant",
    "Hila.C65_gauge",
    "Hila.C65_plaq_zero",
    "Hila.C65_plaq_force",
    "Hila.C65_clover_force_partial",
    "Hila.C65_topo_dim",
    "Hila.C65_topo_action",
    "Hila.C65_topo_gauge",
    "Hila.C65_topo_force_partial",
    "Hila.C65_charge_energy",
    "Hila.C65_charge_dim",
    "Hila.C65_charge_gauge",
    "Hila.C65_clover_force_wrong",
    "Hila.C65_topo_force_wrong"
   ],
   "note": "Gauge covariance and invariance, positivity, the log-plaquette force and the value of charge and energy are proved in full. The forces of the log-clover action and of the topology suppression action are not gradients: C65_clover_force_wrong and C65_topo_force_wrong give the fields; C65_clover_force_partial and C65_topo_force_partial prove the gradient where the logarithms in the product commute. The logarithm is a parameter that inverts the exponential on angles below theta <= pi (exists by C65_log_exists; C64 proves convergence of the code's iteration below sqrt 3). Outside four dimensions the topology suppression functions use fields that were never set (C65_topo_dim)."
  },
  {
   "property": "C66",
   "status": "partial",
   "theorems": [
    "Hila.C66_operator",
    "Hila.C66_adjoint",
    "Hila.C66_gauge",
    "Hila.C66_normal",
    "Hila.C66_free",
    "Hila.C66_force",
    "Hila.C66_evenodd_partial",
    "Hila.C66_evenodd_adjoint",
    "Hila.C66_evenodd_force",
    "Hila.C66_evenodd_wrong"
   ],
   "note": "Full operator: formula, adjoint, gauge covariance, normality, inverse, free square and force proved (C66_operator, C66_adjoint, C66_gauge, C66_normal, C66_free, C66_force). Even-odd operator: adjoint and force proved; its second term has the wrong sign, so it is not the reduction of the full operator (C66_evenodd_wrong, C66_evenodd_partial)."
  },
  {
   "property": "C67",
   "status": "partial",
   "theorems": [
    "Hila.C67_hasenbusch",
    "Hila.C67_draw",
    "Hila.C67_force",
    "Hila.C67_hasen_draw",
    "Hila.C67_algebra",
    "Hila.C67_hasen_force",
    "Hila.C67_action_field",
    "Hila.C67_gauge_force",
    "Hila.C67_hasen_field_wrong"
   ],
   "note": "Fermion action, second Hasenbusch action and gauge action: force = gradient, draw, Hasenbusch operator proved with an exact solver. Not true: the local action of the second Hasenbusch field does not sum to the action (C67_hasen_field_wrong). Missing: accuracy of the solver (C27), Wilson operator."
  },
  {
   "property": "C68",
   "status": "partial",
   "theorems": [
    "Hila.C68_gather",
    "Hila.C68_table",
    "Hila.C68_messages",
    "Hila.C68_slots",
    "Hila.C68_shift_partial",
    "Hila.C68_shift_wrong"
   ],
   "note": "C68_gather, C68_messages, C68_slots and C68_table are complete for nearest neighbours. Missing: shifts of more than one step that move in an antiperiodic direction (C68_shift_partial covers the others); C68_shift_wrong shows that the code loses the sign there. Dirichlet boundaries: the code never writes the elements read across the boundary (C68_gather says they keep their old value), as a TODO in the code admits."
  },
  {
   "property": "C69",
   "status": "partial",
   "theorems": [
    "Hila.C69_site_index",
    "Hila.C69_vectors",
    "Hila.C69_loops",
    "Hila.C69_slots",
    "Hila.C69_gather",
    "Hila.C69_antiperiodic_partial",
    "Hila.C69_antiperiodic_wrong",
    "Hila.C69_storage"
   ],
   "note": "Proved for every division of the nodes into subnodes with the conditions of the setup (SubOK: equal subnodes, even subnode size in the divided directions, merged direction divided, two directions of even subnode size), for both lane counts: index, vectors, loops, slots, storage and the gather with periodic boundaries. Antiperiodic boundaries: right if the direction has one subnode (C69_antiperiodic_partial); false otherwise (C69_antiperiodic_wrong): the local boundary copy negates all lanes, also over inner subnode boundaries. Not modelled: fields of types that cannot be vectorised, the search for the division."
  },
  {
   "property": "C70",
   "status": "partial",
   "theorems": [
    "Hila.C70_edits_partial",
    "Hila.C70_extents",
    "Hila.C70_trailing_space",
    "Hila.C70_indent",
    "Hila.C70_copy",
    "Hila.C70_comment_partial",
    "Hila.C70_comment_wrong",
    "Hila.C70_remove_with_comma"
   ],
   "note": "Proved for every text and edit sequence by refinement to an abstract document: refusals agree, full length, every range read back, the whole output. Missing / false: after a prepend and removal of the last character the output has one extra trailing space (C70_trailing_space); comment_range proved for ranges without earlier edits not ending in a newline, and false if the range ends in a newline (C70_comment_wrong; the present caller never does this)."
  },
  {
   "property": "C71",
   "status": "partial",
   "theorems": [
    "Hila.C71_replace_partial",
    "Hila.C71_suffix_wrong",
    "Hila.C71_char_wrong",
    "Hila.C71_comment_wrong"
   ],
   "note": "Proved for every text given as lexical pieces where character constants have at most one (possibly escaped) character, block comments do not begin with a slash, and number suffixes are not parameter names. False without these: C71_suffix_wrong, C71_char_wrong, C71_comment_wrong. Raw strings are not modelled."
  },
  {
   "property": "C72",
   "status": "partial",
   "theorems": [
    "Hila.C72_find_word_partial",
    "Hila.C72_word_missed",
    "Hila.C72_word_false",
    "Hila.C72_type_partial",
    "Hila.C72_type_wrong",
    "Hila.C72_pragma_partial",
    "Hila.C72_pragma_wrong",
    "Hila.C72_whitespace",
    "Hila.C72_comment",
    "Hila.C72_clean_name",
    "Hila.C72_clean_name_wrong"
   ],
   "note": "White space, commenting, legality of generated names: proved in full. find_word: proved if the first occurrence is a complete word, false otherwise (C72_word_missed) and false at the last character (C72_word_false); types: proved if the number type occurs only as a complete word, false otherwise (C72_type_wrong); pragmas: characterised exactly up to white space, word ends are ignored (C72_pragma_wrong); generated names are not unique (C72_clean_name_wrong). The reverse search of find_word is not modelled."
  },
  {
   "property": "C73",
   "status": "proved",
   "theorems": [
    "Hila.C73_args",
    "Hila.C73_nothing_lost"
   ],
   "note": "The search for the include directories of the compiler (static build only) is not modelled."
  },
  {
   "property": "C74",
   "status": "partial",
   "theorems": [
    "Hila.C74_race_free",
    "Hila.C74_schedules",
    "Hila.C74_sum_partial",
    "Hila.C74_product_partial",
    "Hila.C74_same_as_cpu",
    "Hila.C74_no_sites",
    "Hila.C74_threads_wrong",
    "Hila.C74_overlap_partial",
    "Hila.C74_inner_sites",
    "Hila.C74_overlap_wrong",
    "Hila.C74_vector_partial",
    "Hila.C74_vector_overlap_partial",
    "Hila.C74_atomic",
    "Hila.C74_atomic_sum",
    "Hila.C74_vector_atomic_wrong",
    "Hila.C74_vector_product_wrong",
    "Hila.C74_vector_threads_wrong",
    "Hila.C74_vector_overlap_wrong"
   ],
   "note": "Kernels are interleavings of single loads and stores of all threads; they are proved race-free, hence independent of the schedule for every operation, and the results are proved for sums and products with 2^k threads per block (C74_sum_partial, C74_product_partial, C74_same_as_cpu: the same value as the loop on a processor), for overlapping communication if the second kernel has no more blocks than the first (C74_overlap_partial), for reduction vectors with private copies if the geometries agree (C74_vector_partial, C74_vector_overlap_partial), and for compare-and-swap on the device (C74_atomic, C74_atomic_sum). Negated outside these: C74_threads_wrong (192 threads lose a third), C74_overlap_wrong (a 12^4 rank writes outside the array; C74_inner_sites counts its inner sites), C74_no_sites, C74_vector_threads_wrong, C74_vector_product_wrong, C74_vector_overlap_wrong, C74_vector_atomic_wrong. Not modelled: floating point rounding, the kernels' use of shared memory limits."
  },
  {
   "property": "C75",
   "status": "proved",
   "theorems": [
    "Hila.C75_slots",
    "Hila.C75_ranges",
    "Hila.C75_first_range",
    "Hila.C75_halo_order"
   ],
   "note": "Four-group storage order of GPU_OVERLAP_COMM with EVEN_SITES_FIRST: bijection, loop ranges, independence of the first range from the halo, and halo order, for every well-formed layout. The passes of create_std_gathers are taken as filters over the slots (the step-by-step version is C04). Without EVEN_SITES_FIRST the code does not declare loop_ranges, so it does not compile; that combination is not modelled."
  },
  {
   "property": "C76",
   "status": "partial",
   "theorems": [
    "Hila.C76_all_sites",
    "Hila.C76_parity_partial",
    "Hila.C76_parity_wrong"
   ],
   "note": "Loops over all sites: proved for every interleaving of the stores of the threads and every content of the device arrays (C76_all_sites). Loops over one parity: false in general (C76_parity_wrong: the mask of the other parity is never set), proved if the fresh mask is zero there (C76_parity_partial). Storage order without overlapping communication; DeviceSelect::Flagged is taken at its specification; the join is the one of C12."
  },
  {
   "property": "C77",
   "status": "partial",
   "theorems": [
    "Hila.C77_flagged_partial",
    "Hila.C77_translation_partial",
    "Hila.C77_table_wrong",
    "Hila.C77_histogram_wrong",
    "Hila.C77_operator_wrong",
    "Hila.C77_shortcut_wrong",
    "Hila.C77_continue_wrong"
   ],
   "note": "Proved for every body that the analysis flags as having a conditional, for every body with a conditional and without site dependent tables or reduction vectors, and for every straight-line body. Wrong for conditionals after or around a site dependent table or a reduction vector, for ?: before a read in the same expression, for assignments behind && and for continue after an assignment (negations with witnesses)."
  },
  {
   "property": "C78",
   "status": "partial",
   "theorems": [
    "Hila.C78_program_partial",
    "Hila.C78_no_wait_wrong",
    "Hila.C78_runtime_parity_wrong",
    "Hila.C78_order_matters"
   ],
   "note": "Proved for up to four dimensions, even divided extents, every program, order of sites and content of halos under way (C78_program_partial), for loops with EVEN_SITES_FIRST. Missing: odd divided extents, vectorised loops, BOUNDARY_LAYER_LAYOUT. False without EVEN_SITES_FIRST: gathers are started and never waited for (C78_no_wait_wrong) and a run-time parity ALL visits no site (C78_runtime_parity_wrong). On odd extents a loop over one parity that reads the field it assigns to depends on the order of sites (C78_order_matters)."
  },
  {
   "property": "C79",
   "status": "partial",
   "theorems": [
    "Hila.C79_sum_partial",
    "Hila.C79_product_serial",
    "Hila.C79_product_wrong",
    "Hila.C79_set_wrong",
    "Hila.C79_scaled_sum_wrong"
   ],
   "note": "Sums proved for every division, distribution onto passes and threads and order of combination (C79_sum_partial), products without threads (C79_product_serial); exact arithmetic. False: with OpenMP every product reduction, and with it Field::product, gives 1 (C79_product_wrong), and bodies that add to a variable and also set or scale it are accepted although the result depends on the threads (C79_set_wrong, C79_scaled_sum_wrong)."
  },
  {
   "property": "C80",
   "status": "partial",
   "theorems": [
    "Hila.C80_vectorised_partial",
    "Hila.C80_uniform",
    "Hila.C80_uniform_straight",
    "Hila.C80_shortcut_wrong"
   ],
   "note": "Every body of the language of C77 without assignments behind &&, which are shown to go wrong (C80_shortcut_wrong). Function calls, references and types are not modelled."
  },
  {
   "property": "C81",
   "status": "partial",
   "theorems": [
    "Hila.C81_trajectory_partial",
    "Hila.C81_length_wrong",
    "Hila.C81_endless",
    "Hila.C81_thermalize",
    "Hila.C81_gauss",
    "Hila.C81_reversible",
    "Hila.C81_gauge",
    "Hila.C81_energy_value",
    "Hila.C81_energy_partial",
    "Hila.C81_charge"
   ],
   "note": "False in general for the length: if the interval of measurements does not divide the length the trajectory is longer (C81_length_wrong), and an interval that is not positive makes it endless (C81_endless). Proved: the sequence of leapfrog steps and times (C81_trajectory_partial), Gauss' law (C81_gauss), reversal (C81_reversible), gauge covariance (C81_gauge), value of the energy and its derivative in the step (C81_energy_value, C81_energy_partial), topological charge in terms of the field strength (C81_charge), number of steps in the thermalisation (C81_thermalize). The exponential is the exact one and numbers are real; reunitarisation is left out; the energy is not bounded for a fixed time."
  },
  {
   "property": "C82",
   "status": "partial",
   "theorems": [
    "Hila.C82_arithmetic",
    "Hila.C82_object",
    "Hila.C82_functions",
    "Hila.C82_scalar_power_partial",
    "Hila.C82_scalar_power_wrong",
    "Hila.C82_inverse",
    "Hila.C82_acosh_partial",
    "Hila.C82_acosh_wrong",
    "Hila.C82_real",
    "Hila.C82_imaginary_wrong"
   ],
   "note": "Real numbers instead of floating point; signed zeros, infinities and overflow are left out. The principal value of acosh is proved for the right half plane only; C82_acosh_wrong shows the wrong sign in the left half plane. C82_scalar_power_partial needs a positive base; C82_scalar_power_wrong shows the failure for negative bases. C82_imaginary_wrong shows products with an imaginary object after an inherited compound assignment. Conversions between float and double, printing and vectorised types are not modelled."
  },
  {
   "property": "C83",
   "status": "partial",
   "theorems": [
    "Hila.C83_linear",
    "Hila.C83_scalar",
    "Hila.C83_product",
    "Hila.C83_square",
    "Hila.C83_block",
    "Hila.C83_pow_partial",
    "Hila.C83_pow_wrong",
    "Hila.C83_adjoint",
    "Hila.C83_norm",
    "Hila.C83_elements",
    "Hila.C83_permute",
    "Hila.C83_alias_wrong"
   ],
   "note": "All operators, compound assignments, products (also a += a, a -= a, a *= a), adjoints, traces, norms, 2x2 blocks, rows, columns, permutations, transposes, lists and comparison are proved for all sizes over any field (with conjugation). pow is proved for powers below 2^32; larger and negative powers are reduced modulo 2^32 (C83_pow_wrong). a += a.e(0,0) reads its argument again after changing it, and mult(a, b, a) overwrites a factor while it is read (C83_alias_wrong). Not modelled: random elements, rounding, element types of different precision."
  },
  {
   "property": "C84",
   "status": "partial",
   "theorems": [
    "Hila.C84_operators",
    "Hila.C84_assign",
    "Hila.C84_elements",
    "Hila.C84_matrix",
    "Hila.C84_compare",
    "Hila.C84_values",
    "Hila.C84_shape_wrong",
    "Hila.C84_alias",
    "Hila.C84_alias_wrong",
    "Hila.C84_exp",
    "Hila.C84_max",
    "Hila.C84_functions"
   ],
   "note": "All operators, compound assignments, comparisons, values and functions are proved for all sizes; products and quotients with matrices for square matrices, M *= D and M /= D for all matrices. The product of a diagonal matrix with a matrix of another shape returns a square matrix with elements that were never set, or writes out of bounds (C84_shape_wrong, for all sizes). Scalar compound assignments take references: d /= d.e(k) leaves the elements after k undivided (C84_alias, C84_alias_wrong). Not modelled: random elements, atan, acosh, atanh and complex functions other than exp (C82 has the functions of elements), transpose() as a member, which does not compile when used."
  },
  {
   "property": "C85",
   "status": "partial",
   "theorems": [
    "Hila.C85_library",
    "Hila.C85_pseudofermions",
    "Hila.C85_app",
    "Hila.C85_wilson",
    "Hila.C85_nan_wrong",
    "Hila.C85_fermion_width_wrong"
   ],
   "note": "Invariance proved for the library (any hierarchy; with pseudofermions of variance 1/2, giving the determinant) and for suN_hmc with any measurable force and Wilson's action; the exponential is exact and numbers are real. False of the code: pseudofermions are drawn with variance 1 (C85_fermion_width_wrong) and suN_hmc accepts actions that are not numbers (C85_nan_wrong)."
  },
  {
   "property": "C86",
   "status": "partial",
   "theorems": [
    "Hila.C86_su2_random",
    "Hila.C86_sutwo_random",
    "Hila.C86_momenta",
    "Hila.C86_normal",
    "Hila.C86_loop",
    "Hila.C86_reseed_partial",
    "Hila.C86_reseed_wrong"
   ],
   "note": "Distribution of all gaussian fills and of SU(2) random elements proved for all call sequences; reproducibility after seeding is false: seed_random keeps the left-over number of gaussrand (C86_reseed_wrong); it holds if no number is left over (C86_reseed_partial). Numbers are real; the generator is an independent uniform stream. SU<N>::random for N > 2 is not covered."
  },
  {
   "property": "C87",
   "status": "partial",
   "theorems": [
    "Hila.C87_heatbath_partial",
    "Hila.C87_failure",
    "Hila.C87_kennedy_partial",
    "Hila.C87_kennedy_wrong"
   ],
   "note": "Kept exactly as long as a trial of every hit is accepted, for all N, beta > 0 and staples; the probability that in some hit all 41 trials fail is at most 2e-8 N(N-1)/2 for every link (C87_failure). KennedyPendleton: exact distribution given that one of the first 99 trials is accepted; otherwise it takes the trace 1e-9, so that for every nonzero staple a set of weight zero is hit with positive probability (C87_kennedy_wrong). Hits whose block has length zero have no result. Exact real arithmetic; the random numbers are an i.i.d. uniform stream."
  },
  {
   "property": "C88",
   "status": "partial",
   "theorems": [
    "Hila.C88_ising",
    "Hila.C88_ising_accept",
    "Hila.C88_xy_accept",
    "Hila.C88_xy_partial",
    "Hila.C88_xy_ranks_wrong"
   ],
   "note": "ising is proved for all even lattices, ownerships, visiting orders and halo reads; xy for one rank and beta >= 0. Missing because false: xy on more ranks, where each rank draws its own parity for the next loop (C88_xy_ranks_wrong). Rounding, thermalisation from the start configuration and measurements are not covered."
  },
  {
   "property": "C89",
   "status": "partial",
   "theorems": [
    "Hila.C89_trajectory_partial",
    "Hila.C89_overrelax_sweep",
    "Hila.C89_relax_keeps_action",
    "Hila.C89_relax_unit",
    "Hila.C89_sweep_sequential",
    "Hila.C89_heatbath_run",
    "Hila.C89_trajectory_sweeps"
   ],
   "note": "The distribution is kept up to the probability that a heat bath hit runs out of trials or that there is no result (a division by zero); for those the program goes on with the last trial (see C87, C48). Overrelaxation sweeps keep the action of every configuration exactly. Real arithmetic; dFJ overrelaxation not included."
  },
  {
   "property": "C90",
   "status": "partial",
   "theorems": [
    "Hila.C90_gamma",
    "Hila.C90_half",
    "Hila.C90_half_norm",
    "Hila.C90_half_norm_wrong",
    "Hila.C90_forward_partial",
    "Hila.C90_back_field",
    "Hila.C90_apply_wrong",
    "Hila.C90_dagger_wrong",
    "Hila.C90_covariance_wrong",
    "Hila.C90_evenodd",
    "Hila.C90_evenodd_source",
    "Hila.C90_force"
   ],
   "note": "Gamma matrices, half vectors, the even-odd operator against the full operator of the code, and the force against the Wilson operator are proved. The operator itself is not the Wilson operator: the second term of the hopping loops reads vtemp[dir][X + dir] instead of vtemp[-dir][X - dir]; proved negations for the operator, the adjoint relation and gauge covariance, with what the code does compute (C90_forward_partial) and that the field prepared for the backward term is right (C90_back_field). The half vector squarenorm lacks the factor its comment promises (C90_half_norm_wrong)."
  },
  {
   "property": "C91",
   "status": "partial",
   "theorems": [
    "Hila.C91_adjoint",
    "Hila.C91_antisym",
    "Hila.C91_sym",
    "Hila.C91_action",
    "Hila.C91_adjoint_force",
    "Hila.C91_sym_force_partial",
    "Hila.C91_sym_force_two",
    "Hila.C91_antisym_force_partial",
    "Hila.C91_sym_force_wrong",
    "Hila.C91_antisym_force_wrong",
    "Hila.C91_antisym_generator_wrong"
   ],
   "note": "The three representations, the force of the adjoint one and the force of the symmetric one for N = 2 are proved. For N >= 3 the forces of the symmetric and the antisymmetric representation are proved in the directions of the first generators and shown to be wrong in the direction of the last one (the loops end at the size of the representation); represented_generator_I of the antisymmetric representation is shown to have the wrong sign. sun.h, which provides the generators and project_antihermitean, is not in the repository: they are a hypothesis and the traceless antihermitean part."
  },
  {
   "property": "C92",
   "status": "partial",
   "theorems": [
    "Hila.C92_staples",
    "Hila.C92_action",
    "Hila.C92_trajectory_partial",
    "Hila.C92_polyakov_tracks",
    "Hila.C92_range_stays",
    "Hila.C92_accepts_towards",
    "Hila.C92_numbers",
    "Hila.C92_detailed_balance",
    "Hila.C92_smear",
    "Hila.C92_start",
    "Hila.C92_start_unset",
    "Hila.C92_surface",
    "Hila.C92_surface_constant"
   ],
   "note": "C92_trajectory_partial: in a hit of the heat bath where all trials fail the program goes on with the last trial (C48). Negations: C92_start_unset (no positive value in the profile: maxloc is used without a value) and C92_surface_constant (a line without a surface: division by zero). The accept step is shown to satisfy detailed balance; that the whole step keeps the distribution with the potential needs reversible proposals and is not proved (for N > 2 the fixed order of the subgroups is not reversible). The spectra of the surfaces are not modelled."
  },
  {
   "property": "C93",
   "status": "partial",
   "theorems": [
    "Hila.C93_round",
    "Hila.C93_safe",
    "Hila.C93_free",
    "Hila.C93_best_fit",
    "Hila.C93_end",
    "Hila.C93_aligned_partial",
    "Hila.C93_maximum",
    "Hila.C93_aligned_wrong",
    "Hila.C93_total_wrong",
    "Hila.C93_zero_shared"
   ],
   "note": "Proved at the level of the block descriptors and their two linked lists, for all histories of requests of at least one byte: no overlap, no bad pointer, which addresses can be given back, best fit and no fragments, when the program ends. Alignment to 256 bytes only if a fifth of the memory of the device is a multiple of 256 (C93_aligned_partial); C93_aligned_wrong gives an odd address on a device with 16 GB. The counter of the memory counts later slabs twice (C93_total_wrong); a request of zero bytes gets an address in use (C93_zero_shared). Not covered: statistics of the searches, the maximum of the used size, failure of cudaMalloc, wrap-around of size_t."
  },
  {
   "property": "C94",
   "status": "partial",
   "theorems": [
    "Hila.C94_staples",
    "Hila.C94_samples",
    "Hila.C94_start",
    "Hila.C94_site_shift",
    "Hila.C94_site_shift_wrong",
    "Hila.C94_normalise",
    "Hila.C94_trajectory_partial",
    "Hila.C94_staples_shifted",
    "Hila.C94_relax_shift_wrong",
    "Hila.C94_density",
    "Hila.C94_plaq_anti",
    "Hila.C94_dual",
    "Hila.C94_dual_dual"
   ],
   "note": "C94_staples: the program's staples give the change of the action. C94_samples: all updates of a trajectory keep the weights exp(-action), with the streams of all ranks, for all visit orders and numbers of updates, if shifts are updated only when they are dynamic and the move of all links is used only with the fixed shifts for which it was written. C94_site_shift: that move keeps the action exactly and has an inverse. C94_site_shift_wrong: with updated shifts it multiplies an action by 9 and is accepted all the same. C94_normalise, C94_staples_shifted, C94_trajectory_partial: the shift of all links of a direction changes no plaquette, and one trajectory keeps the weights of sets that it does not change. Missing: several trajectories; C94_relax_shift_wrong: the overrelaxation is not the same after such a shift, because halves are rounded away from zero, so trajectories cannot be chained in this way. C94_density, C94_plaq_anti, C94_dual, C94_dual_dual: measurements. Total weight is infinite because of gauge symmetry; sets are weighed without normalisation. Integers are unbounded and numbers exact. Not modelled: the other measurements, files, charges of static pairs other than through general antisymmetric shifts."
  },
  {
   "property": "C95",
   "status": "proved",
   "theorems": [
    "Hila.C95_local_action",
    "Hila.C95_proposal",
    "Hila.C95_update",
    "Hila.C95_sequence",
    "Hila.C95_reweight"
   ],
   "note": "Random numbers are ideal and independent (C86 is about the generators); real arithmetic; the weights are fixed during the run (AR_iteration off). mmain.cpp in the same directory still uses the removed namespace hila::muca and is not modelled."
  },
  {
   "property": "C96",
   "status": "partial",
   "theorems": [
    "Hila.C96_timelimit",
    "Hila.C96_timelimit_wrong",
    "Hila.C96_timelimit_signs",
    "Hila.C96_timelimit_overflow",
    "Hila.C96_timelimit_refused",
    "Hila.C96_slurm_undefined",
    "Hila.C96_time_to_finish",
    "Hila.C96_signal",
    "Hila.C96_zero_limit_wrong",
    "Hila.C96_timers_partial",
    "Hila.C96_timer_value",
    "Hila.C96_timer_reset_wrong"
   ],
   "note": "The formats of the manual, the check of the remaining time and the values of timers are proved. False of the code and proved so: other strings are refused (C96_timelimit_wrong), a limit of zero stops the program (C96_zero_limit_wrong), a failure of popen is handled (C96_slurm_undefined), a timer may be reset after its first use (C96_timer_reset_wrong); C96_timers_partial and C96_timer_value exclude the last. The label, the layout of the printed lines and the clock are not modelled."
  },
  {
   "property": "C97",
   "status": "partial",
   "theorems": [
    "Hila.C97_transforms_lines_partial",
    "Hila.C97_same_as_cpu_partial",
    "Hila.C97_reflect_partial",
    "Hila.C97_outcome",
    "Hila.C97_reflect_outcome",
    "Hila.C97_equal_ranks_fit",
    "Hila.C97_work_array_wrong",
    "Hila.C97_no_columns_wrong",
    "Hila.C97_batches",
    "Hila.C97_plans"
   ],
   "note": "Proved: if every rank has a column and its columns fit into the work array and into int, FFT and reflection give the lines transformed, as on the CPU, for any order of threads; this condition is exact; it holds for equal ranks; batches and plans. The full claim is false: the work array has buf_size values per element but columns times length are written (C97_work_array_wrong), and a rank without columns starts a kernel without blocks (C97_no_columns_wrong). Streams are not modelled."
  },
  {
   "property": "C98",
   "status": "partial",
   "theorems": [
    "Hila.C98_rot_partial",
    "Hila.C98_last_subgroup",
    "Hila.C98_two_maximum",
    "Hila.C98_pairs",
    "Hila.C98_order",
    "Hila.C98_distance",
    "Hila.C98_stationary",
    "Hila.C98_not_max_wrong",
    "Hila.C98_zero",
    "Hila.C98_outcome",
    "Hila.C98_two",
    "Hila.C98_two_defined",
    "Hila.C98_keeps",
    "Hila.C98_negative_beta",
    "Hila.C98_stops"
   ],
   "note": "Proved for all N, staples, tolerances, orders and random numbers: the rotation is in SU(N) and does not lower Re tr(V S); it is optimal in the last subgroup and, for two colors, in the group; every pair is turned once per iteration; the test measures the distance to H + i c exactly. The update keeps the distribution of the link for beta >= 0, jointly with the remaining random numbers and independently of whether there is a result (for two colors: staples that are multiples of group elements). The full claim is false: for three colors the rotation need not be the maximum (C98_not_max_wrong), a vanishing projection gives 0/0 (C98_zero), and for beta < 0 every proposal is accepted (C98_negative_beta)."
  },
  {
   "property": "C99",
   "status": "partial",
   "theorems": [
    "Hila.C99_detects",
    "Hila.C99_no_false_alarm",
    "Hila.C99_sites",
    "Hila.C99_small",
    "Hila.C99_count",
    "Hila.C99_odd_not_tested",
    "Hila.C99_unshifted_not_found",
    "Hila.C99_unshifted_undefined"
   ],
   "note": "C99_detects, C99_sites: if the test runs without overflow and reports no error, all neighbour reads are right; C99_no_false_alarm: right gathers pass on every lattice; C99_small: on small lattices it decides; C99_count: a loop with a wrong number of sites is found. False in general: C99_unshifted_not_found / C99_unshifted_undefined show that gathers which do not shift at all overflow the 32-bit square and pass on lattices such as 64^4 when integers wrap around; C99_odd_not_tested: loops over odd sites are not tested."
  },
  {
   "property": "C100",
   "status": "partial",
   "theorems": [
    "Hila.C100_split",
    "Hila.C100_even_blocks",
    "Hila.C100_accepted",
    "Hila.C100_rejected",
    "Hila.C100_directories",
    "Hila.C100_seeds",
    "Hila.C100_number_cut",
    "Hila.C100_product_wraps",
    "Hila.C100_check_layout",
    "Hila.C100_clock_collision"
   ],
   "note": "C100_split (rank r becomes rank r mod k of partition r div k), C100_even_blocks, C100_accepted, C100_directories, C100_seeds (common seed other than zero, at most 2^28 ranks). False in general: C100_number_cut (numbers of 2^32 or more), C100_product_wraps (rank times number beyond 2^32), C100_clock_collision (seed from the clock), C100_check_layout (-check uses all ranks)."
  },
  {
   "property": "C101",
   "status": "partial",
   "theorems": [
    "Hila.C101_set",
    "Hila.C101_holds",
    "Hila.C101_gather",
    "Hila.C101_place",
    "Hila.C101_message",
    "Hila.C101_boundary",
    "Hila.C101_index_wraps",
    "Hila.C101_wraps_defined"
   ],
   "note": "set/get, gather and place of elements, messages between ranks and local antiperiodic boundaries proved for all sizes and thread orders with at most 2^32 numbers in the field; C101_index_wraps proves that the code does not have the property beyond, which it does not check. Streams and the memory manager are not modelled."
  },
  {
   "property": "C102",
   "status": "partial",
   "theorems": [
    "Hila.C102_direction",
    "Hila.C102_undefined",
    "Hila.C102_constant_action",
    "Hila.C102_repeat",
    "Hila.C102_covariant",
    "Hila.C102_energy",
    "Hila.C102_cold",
    "Hila.C102_time",
    "Hila.C102_group",
    "Hila.C102_cold_flow",
    "Hila.C102_rejected_step"
   ],
   "note": "Direction, constant action, covariance, energy derivative, length and group proved. The code does not have the property on links without force (C102_undefined, C102_cold, C102_cold_flow), and C102_rejected_step shows the trace of rejected steps. Missing: the end of the loop, the change of the action in steps of finite length, the actions BP and LOG-PLAQUETTE."
  },
  {
   "property": "C103",
   "status": "partial",
   "theorems": [
    "Hila.C103_minmax",
    "Hila.C103_like_cpu",
    "Hila.C103_empty_rank",
    "Hila.C103_overlap_wrong"
   ],
   "note": "Proved in both storage orders when every rank has a site of the parity (with overlapping communication also: values within the limits of the type), and equal to the CPU value where C14 holds. Proved false: a rank without sites of the parity reads coordinates outside of the table (C103_empty_rank); without inner sites and with no value below the largest finite number the value may be nowhere in the field and the location has the wrong parity (C103_overlap_wrong). ArgMin/ArgMax of the library are taken from their documentation."
  },
  {
   "property": "C104",
   "status": "partial",
   "theorems": [
    "Hila.C104_parens_partial",
    "Hila.C104_modifier_partial",
    "Hila.C104_pairs_partial",
    "Hila.C104_spaces_partial",
    "Hila.C104_comment_wrong",
    "Hila.C104_string_wrong",
    "Hila.C104_after_literal_wrong",
    "Hila.C104_separator_wrong",
    "Hila.C104_joined_wrong",
    "Hila.C104_runs_over"
   ],
   "note": "Proved for all texts made of characters, quotients, literals, balanced groups, line comments and comments without * and / inside, with no comment directly after a literal and no string that begins like a comment. Proved false for the excluded texts: /** */ and other comments with * or / (C104_comment_wrong), strings beginning with // (C104_string_wrong), comments directly after a literal (C104_after_literal_wrong), digit separators (C104_separator_wrong), words joined over a comment (C104_joined_wrong); the scan does not stop at the end of the file (C104_runs_over)."
  },
  {
   "property": "C105",
   "status": "partial",
   "theorems": [
    "Hila.C105_ends",
    "Hila.C105_found_partial",
    "Hila.C105_parallel_partial",
    "Hila.C105_initialiser_wrong",
    "Hila.C105_marked_ctor_wrong"
   ],
   "note": "Proved for every call graph, with recursion, that the loop is marked exactly if executing it may draw a random number, provided that nothing executed is hidden from the text of the bodies; the analysis ends. Proved wrong otherwise: random numbers in initialisers of constructors (also default arguments and destructors) are not found, and the pragma contains_rng on a constructor without visible body is ignored, so that such loops are run by several threads."
  },
  {
   "property": "C106",
   "status": "partial",
   "theorems": [
    "Hila.C106_exp",
    "Hila.C106_exp_error",
    "Hila.C106_mult_exp",
    "Hila.C106_altexp",
    "Hila.C106_consistent_partial",
    "Hila.C106_altexp_wrong",
    "Hila.C106_niter_wrong"
   ],
   "note": "Value, error bound and derivative are proved for every matrix and order; what altexp returns is characterised for every rounding of its test. Proved wrong: altexp stops for diag(2i,-2i) after the second order with a matrix of determinant 5, because equal norms are taken for convergence; and if the loop runs out, the reported number is 1, so that the force uses 1 + A."
  },
  {
   "property": "C107",
   "status": "partial",
   "theorems": [
    "Hila.C107_schedule",
    "Hila.C107_metropolis",
    "Hila.C107_number",
    "Hila.C107_restart",
    "Hila.C107_crash_partial",
    "Hila.C107_rewrite_wrong",
    "Hila.C107_rewrite_happens",
    "Hila.C107_overflow_wrong",
    "Hila.C107_overflow_happens"
   ],
   "note": "C107_schedule, C107_metropolis, C107_number and C107_restart hold for all runs. C107_crash_partial excludes the moment in which the status file is rewritten and rejections of a thermalisation trajectory whose number is a multiple of the saving interval; C107_rewrite_wrong proves that the second exclusion is needed, C107_rewrite_happens that it is reached. C107_overflow_wrong and C107_overflow_happens: overflow of the number of steps."
  },
  {
   "property": "C108",
   "status": "partial",
   "theorems": [
    "Hila.C108_stout_force",
    "Hila.C108_hex_force",
    "Hila.C108_hex_local",
    "Hila.C108_momentum",
    "Hila.C108_transform",
    "Hila.C108_gauge_partial",
    "Hila.C108_gauge_wrong",
    "Hila.C108_allocate",
    "Hila.C108_zero_steps_wrong"
   ],
   "note": "Proved: the forces of stout and HEX smearing are the exact derivatives (C108_stout_force, C108_hex_force), the directions of HEX smearing and which links enter (C108_hex_local), the momentum (C108_momentum), the transformation of one step (C108_transform) and rotations of all sites by the same matrix (C108_gauge_partial). Gauge covariance is false of the code (C108_gauge_wrong: the exponential is multiplied on the wrong side), and zero smearing steps write outside of the arrays (C108_zero_steps_wrong). project_antihermitean is not defined in the repository and taken as the projection to traceless antihermitean matrices. HEX under rotations is not treated. The forces hold if refresh was called after the last change of the links."
  },
  {
   "property": "C109",
   "status": "partial",
   "theorems": [
    "Hila.C109_seeds_partial",
    "Hila.C109_large_nodes",
    "Hila.C109_partitions",
    "Hila.C109_seeds_wrong",
    "Hila.C109_seeds_wrong_general",
    "Hila.C109_sites",
    "Hila.C109_memory_partial",
    "Hila.C109_reseed",
    "Hila.C109_lattice_wrong",
    "Hila.C109_disabled",
    "Hila.C109_range",
    "Hila.C109_uniform"
   ],
   "note": "C109_seeds_partial: different seeds for all generators if all ranks have the same number (C109_large_nodes: true for the default if every node has more than 7936 sites); C109_partitions: different partitions; C109_sites, C109_memory_partial, C109_reseed, C109_disabled: each site once, each thread its own seeded generator; C109_range, C109_uniform: the numbers are uniform in [0,1). C109_seeds_wrong, C109_seeds_wrong_general: nodes of different size can have identical generators. C109_lattice_wrong: after a change to a larger lattice loops read and seeding writes outside of the memory. Not modelled: the XORWOW generator itself."
  },
  {
   "property": "C110",
   "status": "partial",
   "theorems": [
    "Hila.C110_names_partial",
    "Hila.C110_values_partial",
    "Hila.C110_distinct_partial",
    "Hila.C110_compiles_partial",
    "Hila.C110_namespace_wrong",
    "Hila.C110_namespace_wrong_general",
    "Hila.C110_underscore_wrong"
   ],
   "note": "C110_names_partial, C110_values_partial: variables at file level, and variables in namespaces referred to with the namespace, have their last assigned value on host and device after any assignments. C110_distinct_partial, C110_compiles_partial: different variables have different device variables if names are not reserved and namespaces do not end with an underscore. C110_namespace_wrong, C110_namespace_wrong_general: references without the namespace get another variable, or do not compile. C110_underscore_wrong: clashes of names, anonymous namespaces. Not modelled: aliases of namespaces, static members, get() in loops."
  },
  {
   "property": "C111",
   "status": "partial",
   "theorems": [
    "Hila.C111_group",
    "Hila.C111_phase",
    "Hila.C111_random",
    "Hila.C111_product_wrong",
    "Hila.C111_zero_wrong"
   ],
   "note": "C111_group, C111_phase: all members agree with the complex numbers of modulus 1; C111_random: random() is a bijection of [0,1) to the group with invariant distribution. C111_product_wrong: the product a * b cannot be compiled; C111_zero_wrong: assigning 0 gives the unit element. Not modelled: rounding, phases of integer type."
  },
  {
   "property": "C112",
   "status": "partial",
   "theorems": [
    "Hila.C112_vector_partial",
    "Hila.C112_vector_wrong",
    "Hila.C112_string",
    "Hila.C112_strings",
    "Hila.C112_messages_partial",
    "Hila.C112_send_wrong",
    "Hila.C112_sum",
    "Hila.C112_product_partial",
    "Hila.C112_product_wrong"
   ],
   "note": "C112_vector_partial, C112_string, C112_strings, C112_messages_partial: data of less than 2^31 bytes arrives complete on all ranks and in order; C112_sum: sums over ranks for all element types; C112_product_partial: products of numbers. C112_vector_wrong, C112_send_wrong: longer vectors give an error or lose data silently. C112_product_wrong: products of complex numbers are wrong. MPI is assumed to follow its standard; the number of elements of a sum is taken to fit into int."
  },
  {
   "property": "C113",
   "status": "partial",
   "theorems": [
    "Hila.C113_assign",
    "Hila.C113_operators",
    "Hila.C113_functions_partial",
    "Hila.C113_functions_wrong",
    "Hila.C113_sums",
    "Hila.C113_extrema_partial",
    "Hila.C113_nan_wrong",
    "Hila.C113_equal",
    "Hila.C113_size_partial",
    "Hila.C113_size_wrong",
    "Hila.C113_init_partial",
    "Hila.C113_init_wrong"
   ],
   "note": "Proved: assignments with arrays and scalars incl. aliasing, all binary operators, functions, sum, squarenorm, dot, max/min with the first place, comparison, size, initializer lists. Shown false: functions of integer arrays are cut to integers (pow(a,-1) is 0), max depends on the order with not-a-number, size() of 1x1 arrays does not compile, lists of the wrong length in release programs. Missing: rounding, division of integers by zero, vectorized versions."
  },
  {
   "property": "C114",
   "status": "partial",
   "theorems": [
    "Hila.C114_search",
    "Hila.C114_decision_partial",
    "Hila.C114_lengths",
    "Hila.C114_ends",
    "Hila.C114_constructor_wrong",
    "Hila.C114_constructor_inside_wrong",
    "Hila.C114_no_body_wrong",
    "Hila.C114_inner_mark_wrong"
   ],
   "note": "Proved: the search for novector is exact for all call graphs and ends; a loop is vectorized iff all conditions hold, with the common vector length; the lengths found for types are positive and types fit together iff they have the same number type. Shown false: constructors (mark and body are not looked at, in loops and in functions), functions without visible body; the mark of calls in functions is inverted (not used at this commit). Missing: the generated code itself."
  },
  {
   "property": "C115",
   "status": "partial",
   "theorems": [
    "Hila.C115_address_partial",
    "Hila.C115_reference_partial",
    "Hila.C115_static",
    "Hila.C115_part_wrong",
    "Hila.C115_field_part_wrong",
    "Hila.C115_cast_wrong"
   ],
   "note": "Proved for whole variables and field elements in any number of parentheses and casts, and for static variables. Shown false: members and elements of variables from outside (address and reference accepted), members of f[X] (reference accepted, field not marked as written), casts of an expression in parentheses. Missing: pointers passed to functions, types."
  },
  {
   "property": "C116",
   "status": "partial",
   "theorems": [
    "Hila.C116_array_partial",
    "Hila.C116_only_after_read",
    "Hila.C116_vector_partial",
    "Hila.C116_no_vectors",
    "Hila.C116_local",
    "Hila.C116_known",
    "Hila.C116_reads",
    "Hila.C116_accepts",
    "Hila.C116_read_then_write_wrong",
    "Hila.C116_write_refused",
    "Hila.C116_minus_wrong",
    "Hila.C116_mixed_wrong"
   ],
   "note": "Proved for every list of references: without an earlier changing read of the array every accepted assignment is += to a fixed element and is summed; a ReductionVector which is assigned to has one operation and no changing read; such loops are not vectorized; bases depending on the site and changing elements of arrays of unknown size are refused; arrays of the loop do not matter; every loop which keeps the rules is accepted. False of the code and proved so: after a read of a changing element any assignment to the same array is accepted without a reduction (toplevelvisitor.cpp:532-555 returns before the check at 607); -= and = on a ReductionVector are finished as a product (505-512); reads of a fixed element are not compared with the reduction. Not modelled: direct_access pragma, bases which are members."
  },
  {
   "property": "C117",
   "status": "partial",
   "theorems": [
    "Hila.C117_accepted_partial",
    "Hila.C117_reduction",
    "Hila.C117_other_wrong",
    "Hila.C117_unsigned_wrong",
    "Hila.C117_types"
   ],
   "note": "Proved for every list of references: the exact condition under which a loop is accepted, and that variables changed by += only (*= only) are summed (multiplied) and variables only read are not reduced. False of the code and proved so: after one += any other assignment to and reading of the variable is accepted, because the check for other references is disabled (toplevelvisitor.cpp:1753); *= to variables of type unsigned is refused although unsigned is in the list, because canonical types are compared. What such loops compute is the subject of C79. Not modelled: SiteSelect, the dependence on the site (C80). The names of canonical types are those of clang and are given as texts."
  }
 ]
}
