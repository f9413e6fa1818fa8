{"id": "C01", "title": "Every lattice site has exactly one owner and one storage slot", "statement": "For a lattice of any size split over any number of ranks, every coordinate vector inside the lattice is owned by exactly one rank, and on that rank it is stored in exactly one slot 0..volume-1. Looking up the slot of a coordinate and asking the slot for its coordinate are mutually inverse. On every rank all even sites occupy the slots before all odd sites, so that loops over EVEN, ODD and ALL visit exactly the sites of that parity, once each.", "quantifier": "all dimensions NDIM, all lattice sizes, all division counts per direction, all ranks, all coordinates", "why_tests_cant": "a test fixes one NDIM, a few sizes and a few rank counts; the storage formula mixes integer division with parity and can fail only for particular odd/even combinations of extents and offsets", "anchors": ["libraries/plumbing/lattice.cpp: lattice_struct::site_index, node_rank, setup_node_divisors, setup_nodes/nodeinfo, node_struct::setup", "libraries/plumbing/lattice.h: node_struct, loop_begin, loop_end, coordinates, global_coordinates"]}
{"id": "C02", "title": "All ranks agree on who owns what", "statement": "The rank computed from a coordinate is the rank whose published origin and extent contain that coordinate; the per-rank boxes tile the lattice without gap or overlap and their volumes (and even/odd site counts) add up to those of the lattice, whether or not the extents are divisible by the division counts.", "quantifier": "all lattice sizes, all division counts not exceeding the extents, all coordinates, all ranks", "why_tests_cant": "uneven divisions occur only for particular combinations of size and rank count, far more than can be run", "anchors": ["libraries/plumbing/lattice.cpp: node_rank, setup_node_divisors, allnodes::... nodeinfo, is_on_mynode"]}
{"id": "C03", "title": "A neighbour access reads the neighbouring site's value", "statement": "After the halo of a field has been gathered in a direction, reading the field at X + direction at any site of any rank yields the value stored at the periodic neighbour of that site, for both up and down directions and for EVEN, ODD or ALL loops.", "quantifier": "all NDIM, lattice sizes, node divisions, directions, parities, field contents, sites", "why_tests_cant": "the halo slot formula relies on two ranks enumerating the same boundary in the same order; an error shows only for particular shapes of node blocks", "anchors": ["libraries/plumbing/lattice.cpp: create_std_gathers", "libraries/plumbing/field_comm.h: gather_comm_elements, start_communication, wait_gather", "libraries/plumbing/lattice.h: comm_node_struct, nn_comminfo_struct"]}
{"id": "C04", "title": "Halo messages pair up", "statement": "For every direction and parity, whenever a rank expects a message of k sites from a partner rank, the partner sends exactly one message of k sites, listing those sites in the order in which the receiver will store them; and nothing is sent that is not expected. Each direction involves at most one sender and one receiver per rank.", "quantifier": "all NDIM, lattice sizes, node divisions, directions, parities, rank pairs", "why_tests_cant": "a mismatch is a hang or silent permutation that only appears with specific decompositions", "anchors": ["libraries/plumbing/lattice.cpp: create_std_gathers", "libraries/plumbing/lattice.h: comm_node_struct::get_sitelist, offset"]}
{"id": "C05", "title": "Neighbour reads are never stale", "statement": "For any sequence of field assignments on EVEN, ODD or ALL, explicit start_gather calls and loops reading f[X+d] on any parity, each loop reads, for each site it visits, the value most recently assigned to the neighbour before that loop. No halo message is waited for that was not posted or posted into a buffer that is still in use, and a message in flight when the field is modified is either finished or still carries the right values.", "quantifier": "all finite histories of writes, gathers and neighbour reads over all directions and parities", "why_tests_cant": "the gather status of each (direction, parity) is cached; staleness needs particular interleavings of partial-parity writes and gathers", "anchors": ["libraries/plumbing/field.h: mark_changed, mark_gathered, is_gathered, gather_status, drop_comms", "libraries/plumbing/field_comm.h: start_communication, start_gather, wait_gather"]}
{"id": "C06", "title": "shift moves a field by any displacement", "statement": "f.shift(v) returns the field g with g[x] = f[x + v] (periodic) for every displacement vector v, independent of its length, sign or number of nonzero components; the source field is unchanged.", "quantifier": "all displacement vectors in Z^NDIM, all lattice sizes, all fields", "why_tests_cant": "the routine decomposes v into unit steps with wrap-around shortcuts and double-buffering; displacements are unbounded", "anchors": ["libraries/plumbing/field_comm.h: Field<T>::shift"]}
{"id": "C07", "title": "Repeated get/set of site lists round-trips", "statement": "For any list of distinct coordinates, set_elements followed by get_elements on the same list returns the written values in the order of the list on every participating rank, all other sites keep their value, and the result does not depend on how sites are distributed over ranks.", "quantifier": "all coordinate lists, all values, all node divisions", "why_tests_cant": "the data is regrouped per rank and re-ordered twice; errors need particular interleavings of owners in the list", "anchors": ["libraries/plumbing/field_comm.h: gather_elements, scatter_elements, get_elements, set_elements, get_subvolume, get_slice"]}
{"id": "C08", "title": "Field files do not depend on the decomposition", "statement": "Writing a field and reading it back restores it exactly at every site, and the bytes written are the site values in lexicographic coordinate order (first coordinate fastest), whatever the number of ranks and whatever the internal buffer size, as long as the buffer holds one element.", "quantifier": "all lattice sizes, element sizes, buffer sizes, decompositions on writing and reading", "why_tests_cant": "chunk boundaries fall at sizes a test does not reach; a file can be written and read with different rank counts", "anchors": ["libraries/plumbing/field_io.h: Field<T>::write, read"]}
{"id": "C09", "title": "Reading a smaller configuration tiles it periodically", "statement": "Reading a file of a smaller lattice into a lattice whose extents are multiples of the file's extents sets every site x to the file's value at x mod file-size.", "quantifier": "all lattice sizes and divisors, all file contents, all buffer sizes", "why_tests_cant": "quantifies over all size ratios and chunkings", "anchors": ["libraries/plumbing/field_io.h: Field<T>::read(inputfile, insize)", "libraries/plumbing/gaugefield.h: config_read"]}
{"id": "C10", "title": "Sum reductions count every contribution once", "statement": "The value of a reduction variable after any sequence of assignments and += loops equals the last assigned value plus the sum of all site contributions since, each counted once, on every rank (or on rank 0 when allreduce is off), for immediate, non-blocking and delayed modes.", "quantifier": "all histories of assignments, loops and reads, all rank counts, all modes", "why_tests_cant": "partial sums are held per rank and folded at different times; double counting appears only for particular histories", "anchors": ["libraries/plumbing/reduction.h: Reduction<T>::operator=, reduce_sum_node, start_reduce, reduce, value", "libraries/plumbing/com_mpi.cpp: hila_reduce_double_setup, hila_reduce_sums"]}
{"id": "C11", "title": "Vector reductions count every contribution once", "statement": "Each element of a reduction vector equals its assigned initial value combined (sum or product) with all site contributions, each counted once.", "quantifier": "all vector lengths, initial values, histories of loops, rank counts, modes", "why_tests_cant": "as for C10, element-wise", "anchors": ["libraries/plumbing/reductionvector.h"]}
{"id": "C12", "title": "Global site selection is complete and bounded", "statement": "Selecting sites in a loop and joining over ranks yields on rank 0 exactly the selected coordinates up to the maximum requested number; size() and overflow() tell how many were kept and how many were dropped.", "quantifier": "all rank counts, all per-rank selections, all limits", "why_tests_cant": "truncation interacts with the order of ranks and with ranks that selected nothing", "anchors": ["libraries/plumbing/site_select.h: SiteSelect, join_data_vectors, endloop_action"]}
{"id": "C13", "title": "Selected values belong to the selected sites", "statement": "Each value returned by a site-value selection is the value given at the coordinate with the same index; if the loop body selects a site several times, the last value given is kept; nothing is written outside the selection.", "quantifier": "all loops, orders of visits, numbers of selections per site, rank counts and limits", "why_tests_cant": "needs repeated selections of the same site", "anchors": ["libraries/plumbing/site_select.h: SiteValueSelect::select_site_value"]}
{"id": "C14", "title": "min and max report the extremum and a site attaining it", "statement": "f.min(par, loc) and f.max(par, loc) return the minimum/maximum over the sites of that parity and a coordinate where it is attained, for every field content.", "quantifier": "all field contents, parities, rank counts", "why_tests_cant": "initial values of the search are type-dependent; failures need special field contents (all non-positive values, extreme values)", "anchors": ["libraries/plumbing/reduction.h: Field<T>::minmax, min, max"]}
{"id": "C15", "title": "The device memory pool never hands out memory in use", "statement": "For any sequence of allocations, frees and purges, an allocation returns a block at least as large as requested that is not currently held by any other user; freeing returns exactly that block; double frees are rejected.", "quantifier": "all finite histories of alloc, free and purge, all sizes", "why_tests_cant": "reuse decisions depend on the whole history of sizes", "anchors": ["libraries/plumbing/memory_pool.cpp: alloc, free, purge", "libraries/plumbing/backend_gpu/memory_pool2.cpp"]}
{"id": "C16", "title": "Cluster labels identify connected components", "statement": "After cluster finding on a site-type field, two sites have the same label if and only if they have the same type and are connected by a path of nearest neighbours of that type; background sites belong to no cluster; the number of clusters, their types and sizes equal those of the connected components.", "quantifier": "all lattice sizes, all type fields, all update orders within a sweep, all rank counts", "why_tests_cant": "labels spread by parallel relaxation with arbitrary update order; component shapes are unbounded", "anchors": ["libraries/plumbing/clusters.h: make_labels, classify, find, area, type, sites"]}
{"id": "C17", "title": "The FFT transforms along each requested direction, independent of layout", "statement": "FFT(f, directions) equals applying the one-dimensional transform along every requested direction to every lattice line, independently of how the lattice is divided over ranks, and leaves other directions untouched; FFT followed by FFT_BACK multiplies by the volume of the transformed directions.", "quantifier": "all lattice sizes, direction subsets, node divisions, fields", "why_tests_cant": "the data path (collect, redistribute pencils, transform, return) uses uneven column splitting; the quantifier includes all node layouts", "anchors": ["libraries/plumbing/fft.h: hila_fft", "libraries/plumbing/fft.cpp: init_pencil_direction", "libraries/plumbing/fft_fftw_transform.h"]}
{"id": "C18", "title": "reflect mirrors the field", "statement": "f.reflect(dirs) returns g with g[x] = f[x'] where x'_d = (L_d - x_d) mod L_d for reflected directions d and x'_d = x_d otherwise, for all lattice extents.", "quantifier": "all extents (even and odd), direction subsets, fields", "why_tests_cant": "an off-by-one at the middle element appears only for particular extents", "anchors": ["libraries/plumbing/fft.h: Field<T>::reflect", "libraries/plumbing/fft_fftw_transform.h: hila_fft::reflect"]}
{"id": "C19", "title": "Command-line flags receive exactly their own values", "statement": "Each registered flag obtains the arguments following its occurrences up to the next flag, in order, independent of the order in which flags are given or processed; unknown arguments and wrong argument counts are rejected.", "quantifier": "all argument vectors, all sets of registered flags", "why_tests_cant": "the parser consumes arguments flag by flag; failures need a particular position of a flag", "anchors": ["libraries/plumbing/cmdline.cpp: cmdlineargs::read_arg_vector, add_flag, fill_argmap, flag_set, get_int, get_string"]}
{"id": "C20", "title": "Parameter-file tokens are matched as documented", "statement": "Reading a parameter matches the label word by word, separated by any white space, and takes the next comma/space separated token (or quoted string) as the value; what follows is left for the next read; numbers are accepted only if the token is a number of that type.", "quantifier": "all input lines, labels and token lists", "why_tests_cant": "input strings are unbounded; the tokenizer has interacting rules for quotes, commas and white space", "anchors": ["libraries/plumbing/input.cpp: contains_word_list, peek_token, get_token, match_token, handle_key, get_item", "libraries/plumbing/input.h: get_value, is_value"]}
{"id": "C21", "title": "Shuffle is a uniform permutation", "statement": "hila::shuffle returns a permutation of its input; every permutation of a list of distinct items corresponds to exactly one sequence of random choices, so equally likely choices give equally likely permutations.", "quantifier": "all list lengths and contents, all random choice sequences", "why_tests_cant": "n! outcomes; uniformity is a counting statement", "anchors": ["libraries/plumbing/shuffle.h: shuffle, shuffle_directions_and_parities"]}
{"id": "C22", "title": "Different ranks get different random seeds", "statement": "With a common user seed, ranks (and, with partitioned runs, ranks of different partitions) get pairwise different generator seeds.", "quantifier": "all 64-bit seeds, all ranks below the documented bounds, all partitions", "why_tests_cant": "2^64 seeds times all rank pairs", "anchors": ["libraries/plumbing/random.cpp: shuffle_rng_seed, seed_random, initialize_host_rng"]}
{"id": "C23", "title": "The Levi-Civita table is complete and correctly signed", "statement": "The table for N indices lists each permutation of 0..N-1 exactly once, with its signature.", "quantifier": "all N", "why_tests_cant": "tests can only check small N", "anchors": ["libraries/tools/levi_civita.h"]}
{"id": "C24", "title": "A checkpoint restored after a crash is a state that was saved", "statement": "Whatever the instant at which the process dies during checkpointing, a restart restores a configuration together with the trajectory number it was saved with.", "quantifier": "all crash points, all histories of checkpoints and restarts", "why_tests_cant": "requires killing the process at every instruction boundary", "anchors": ["libraries/tools/checkpoint.h: checkpoint, restore_checkpoint"]}
{"id": "C25", "title": "Multicanonical bins and weights are consistent", "statement": "Each order parameter value inside the range is assigned to the bin whose limits enclose it; the weight function is the piecewise linear interpolation of the tabulated values, continuous across bins; a weight file written and read back gives the same function; with hard walls the order parameter never leaves the range once inside.", "quantifier": "all sorted bin limits, all order-parameter values, all weight tables, all update histories", "why_tests_cant": "continuum of values, all tables", "anchors": ["libraries/tools/multicanonical.cpp: find_OP_bin_index, weight_function, write_weight_function, read_weight_function, accept_reject"]}
{"id": "C26", "title": "Symplectic integrators are time-reversible", "statement": "A trajectory step of any nested integrator hierarchy with time step eps followed by the step with -eps restores the fields and momenta, and the elementary momentum and position updates add up to total time eps at every level.", "quantifier": "all nesting depths, substep counts, step sizes and action terms", "why_tests_cant": "hierarchies are recursive and unbounded", "anchors": ["libraries/hmc/integrator.h: leapfrog_integrator::step, O2_integrator::step, momentum_action"]}
{"id": "C27", "title": "Conjugate gradient returns a vector satisfying its stopping criterion", "statement": "When the solver stops before its iteration limit, the returned vector x satisfies |b - M^dagger M x|^2 < accuracy^2 * |b|^2; this includes a zero right-hand side and an exact initial guess.", "quantifier": "all operators, right-hand sides, initial guesses, accuracies", "why_tests_cant": "continuum of inputs; degenerate inputs lead to division by zero", "anchors": ["libraries/dirac/conjugate_gradient.h: CG::apply"]}
{"id": "C28", "title": "The SU2 class is the group SU(2)", "statement": "Products, conjugates, determinants and conversions of SU2 elements in the four-component representation agree with those of the corresponding 2x2 complex matrices; the product of normalised elements is normalised; conversion to a matrix and projection back is the identity.", "quantifier": "all component values", "why_tests_cant": "algebraic identities over the reals", "anchors": ["libraries/datatypes/su2.h"]}
{"id": "C29", "title": "Overrelaxation preserves the action", "statement": "An overrelaxation update of a link keeps the link in SU(N) and leaves Re Tr(U S^dagger) unchanged for every staple.", "quantifier": "all N, links and staples", "why_tests_cant": "identity over continuous matrices for all N", "anchors": ["libraries/gauge/sun_overrelax.h: suN_overrelax", "libraries/datatypes/su2.h: project_from_matrix, convert_to_2x2_matrix", "libraries/datatypes/matrix.h: mult_by_2x2_left"]}
{"id": "C30", "title": "Blocked lattices keep ownership and values", "statement": "A blocked lattice's site c is owned by the rank owning site c*factor of the parent lattice; blocking a field picks exactly those values and unblocking writes exactly those back, leaving other sites unchanged; unblocking returns to the lattice that was blocked.", "quantifier": "all sizes, factors, node divisions, histories of block and unblock", "why_tests_cant": "parent links depend on the history of blockings", "anchors": ["libraries/plumbing/lattice.cpp: block_by_factor, setup_blocked_lattice, can_block_by_factor", "libraries/plumbing/lattice.h: Lattice::block, unblock", "libraries/plumbing/field_comm.h: block_from, unblock_to"]}
{"id": "C31", "title": "Layout setup always finishes with a valid decomposition or an error", "statement": "Given any lattice size and number of ranks, layout setup terminates; if it succeeds then the product of the division counts is the number of ranks and every rank gets a non-empty block.", "quantifier": "all lattice sizes and rank counts", "why_tests_cant": "the search loop has retry logic whose non-termination shows only for rare combinations", "anchors": ["libraries/plumbing/setup_layout_generic.cpp", "libraries/plumbing/setup_layout_simple.cpp", "libraries/plumbing/setup_layout_vector.cpp"]}
{"id": "C32", "title": "Coordinate and direction arithmetic is consistent", "statement": "pmod returns the representative in 0..b-1; taking coordinates modulo the lattice size is periodic and idempotent; -d and opposite direction agree; opposite parity is an involution exchanging EVEN and ODD; moving by d changes parity (for even extents also across the boundary); a coordinate vector that is a unit direction is recognised as that direction.", "quantifier": "all integers, all NDIM, all directions, all coordinates", "why_tests_cant": "unbounded integers incl. negatives; all NDIM", "anchors": ["libraries/plumbing/coordinates.h: pmod, opp_dir, opp_parity, CoordinateVector::parity, mod, is_direction, operator+=(Direction)"]}
{"id": "C33", "title": "Loop observables are gauge invariant", "statement": "Plaquette sum, Polyakov loop and Re Tr(link * staple^dagger) are unchanged under any gauge transformation of the links, on any periodic lattice.", "quantifier": "all lattice sizes, NDIM, groups, gauge fields and gauge transformations", "why_tests_cant": "continuum of fields and transformations", "anchors": ["libraries/gauge/staples.h: staplesum", "libraries/gauge/polyakov.h: measure_polyakov", "libraries/plumbing/gaugefield.h: measure_plaq"]}
{"id": "C34", "title": "Configuration files are self-describing", "statement": "config_read restores exactly the gauge field that config_write saved, and rejects files with a wrong magic number, dimension, element size or incompatible lattice size before touching the field.", "quantifier": "all lattice sizes, NDIM, element sizes, field contents, header contents", "why_tests_cant": "all headers and sizes", "anchors": ["libraries/plumbing/gaugefield.h: config_write, config_read, write, read"]}
{"id": "C35", "title": "Momentum bins are consistent with the spectral density", "statement": "Every momentum mode is counted in at most one bin; bin edges returned by the API enclose exactly the modes counted; bin information returned always corresponds to the current binning parameters.", "quantifier": "all histories of parameter setters and queries; all momenta", "why_tests_cant": "cached information can be stale only after particular call orders", "anchors": ["libraries/plumbing/spectraldensity.h: k_binning"]}
{"id": "C36", "title": "Slices and subvolumes enumerate their sites", "statement": "get_subvolume and get_slice return the values of exactly the requested box, first coordinate fastest; negative entries of the slice vector mean the full extent; invalid boxes are rejected.", "quantifier": "all boxes, all slice vectors, all lattice sizes", "why_tests_cant": "all box shapes", "anchors": ["libraries/plumbing/field_comm.h: get_subvolume, get_range_from_slice, get_slice", "libraries/plumbing/lattice.h: forcoordinaterange"]}
{"id": "C37", "title": "Rank remapping is a permutation", "statement": "The map from logical node number to MPI rank is a bijection of 0..N-1 with its published inverse, for any grouping of nodes.", "quantifier": "all rank counts, group sizes, divisions", "why_tests_cant": "all decompositions", "anchors": ["libraries/plumbing/map_node_layout.cpp: create_remap, remap, inverse_remap"]}
{"id": "C38", "title": "Extended precision sums are exact up to the last correction", "statement": "Accumulating floating point numbers into an extended precision variable loses nothing in the first two correction levels: value + corrections equals the exact sum up to the rounding errors of the second-order correction; multiplication by an integer n gives n times the value; comparisons agree with comparisons of represented values.", "quantifier": "all sequences of additions of floating point numbers, all integers n", "why_tests_cant": "continuum of floating point inputs; cancellation patterns", "anchors": ["libraries/datatypes/extended.h", "libraries/datatypes/extended.cpp"]}
{"id": "C39", "title": "HMC rejection restores the old configuration", "statement": "A HMC update either accepts the evolved fields or restores exactly the configuration before the trajectory; the acceptance decision is exp(S_old - S_new) against a uniform number.", "quantifier": "all actions, integrators, random numbers, histories of updates", "why_tests_cant": "all trajectories", "anchors": ["libraries/hmc/hmc.h: update_hmc", "libraries/hmc/gauge_field.h: backup, restore_backup"]}
{"id": "C40", "title": "Message tags stay in step", "statement": "All ranks performing the same sequence of communications draw the same message tags, tags stay in the reserved range, and two communications in flight use different tags as long as fewer than the size of the range are outstanding.", "quantifier": "all communication histories", "why_tests_cant": "wrap-around occurs after hundreds of communications", "anchors": ["libraries/plumbing/com_mpi.cpp: get_next_msg_tag"]}
{"id": "C41", "title": "Reading a field at any offset inside a loop", "statement": "A site loop may read f[X + v] for any list of displacement vectors v; at every visited site each read gives the value f had before the loop at the periodically displaced site, for ALL, EVEN and ODD loops.", "quantifier": "all lists of offsets of any length, all parities, all lattice extents, all fields", "why_tests_cant": "the shifted copies are built recursively from each other through a buffer with references into a growing array; problems need long or many offsets, or odd extents", "anchors": ["libraries/plumbing/field_comm.h: buffered_shift_offsets, do_buffered_shift", "hilapp/src/codegen.cpp: handle_field_plus_offsets", "libraries/plumbing/field.h: shift_buffer"]}
{"id": "C42", "title": "A truncated field file is never accepted", "statement": "Reading a field or a configuration by file name from a file that holds fewer elements than the lattice has sites ends the program with an error; it never returns a field that is partly filled with undefined values.", "quantifier": "all lattice sizes, file lengths, buffer sizes and node divisions", "why_tests_cant": "the failure flag is only looked at when the file is closed; it depends on where in which chunk the data ends", "anchors": ["libraries/plumbing/field_io.h: Field::read, hila::close_file", "libraries/plumbing/gaugefield.h: config_read"]}
{"id": "C43", "title": "Clusters found from links are the link-connected components", "statement": "After cluster finding on a link field, two sites have the same label if and only if they are joined by a path of non-zero links; sites without links belong to no cluster.", "quantifier": "all lattice sizes, all link fields, all update orders", "why_tests_cant": "whether unlinked adjacent sites are merged depends on the shape of the link configuration, which is unbounded", "anchors": ["libraries/plumbing/clusters.h: Clusters::find(const VectorField&)"]}
{"id": "C44", "title": "Real transforms use half of the field and give real results", "statement": "On lattices with even extents, of every pair of sites x and -x exactly one is classified as significant for FFT_complex_to_real (or x = -x and only the real part is); FFT_complex_to_real returns the Fourier transform of the Hermitian field determined by the significant values, without losing an imaginary part; FFT_real_to_complex gives a Hermitian field; one after the other in opposite senses multiplies a real field by the volume.", "quantifier": "all dimensions, even extents, node divisions, fields", "why_tests_cant": "the classification of sites in several dimensions has many boundary cases; tests use a few sizes", "anchors": ["libraries/plumbing/fft.h: FFT_complex_to_real_site, FFT_complex_to_real, FFT_real_to_complex"]}
{"id": "C45", "title": "Weight iteration follows the recorded visits", "statement": "In the multicanonical weight iterations each bin's weight changes only through the visits recorded since the last update: the direct method raises it by C times visits times bins over samples and shifts all weights so the minimum is zero; the single-sample method raises the visited bin by C; the canonical method moves the weight difference of neighbouring bins towards the logarithm of the ratio of their measured densities; and every call returns a defined continue flag.", "quantifier": "all bin tables, histories of order-parameter values, finish conditions and update sizes", "why_tests_cant": "unbounded histories of visits and arbitrary bin tables", "anchors": ["libraries/tools/multicanonical.cpp: iterate_weight_function_direct, iterate_weight_function_direct_single, iterate_weight_function_canonical"]}
{"id": "C46", "title": "The initial guess for the solver is the projection on the saved solutions", "statement": "The list of saved solutions holds the last n solutions, newest first. The initial guess is the combination of them whose residual is orthogonal to their span; in particular it is the solution itself if the solution is in the span.", "quantifier": "all list lengths, histories of saved solutions, operators, right-hand sides", "why_tests_cant": "The guess only changes the number of iterations of the solver, so results look right whatever the guess is; whether it is the projection depends on all linear relations between saved vectors.", "anchors": ["libraries/hmc/MRE_guess.h: MRE_guess", "libraries/hmc/fermion_field.h: save_new_solution, initial_guess"]}
{"id": "C47", "title": "SU2 exponential and logarithm", "statement": "The exponential of an SU2 algebra element is the matrix exponential of its matrix and lies in SU(2); the exponential of the logarithm of a group element is the element; the exponential of an SU2 object is the matrix exponential of its matrix.", "quantifier": "all algebra elements and group elements", "why_tests_cant": "identities between transcendental functions for all real arguments, with special cases at zero length and at -1", "anchors": ["libraries/datatypes/su2.h: SU2::exp, SU2::log, Algebra::exp, Algebra::expand"]}
{"id": "C48", "title": "Heat bath updates stay in the group", "statement": "A heat bath update of a link in SU(N) gives a link in SU(N), for every staple, coupling and sequence of random numbers in [0,1).", "quantifier": "all N, links, staples, couplings, random number streams", "why_tests_cant": "the failing case needs 41 consecutive rejections, which no test run meets", "anchors": ["libraries/gauge/sun_heatbath.h: suN_heatbath", "libraries/gauge/KennedyPendleton.h: KennedyPendleton"]}
{"id": "C49", "title": "Inverse of a diagonal plus a constant matrix", "statement": "hila::invert_diagonal_plus_constant_matrix(D, c) returns the inverse of the matrix D + c (c added to every element) whenever D has no zero and the inverse exists.", "quantifier": "all sizes, diagonals and constants", "why_tests_cant": "an identity for all real matrices of this form and all sizes", "anchors": ["libraries/datatypes/matrix_linalg.h: invert_diagonal_plus_constant_matrix"]}
{"id": "C50", "title": "Coordinates of the algebra of SU(N)", "statement": "The generator table holds N*N-1 antihermitian traceless matrices orthonormal in 2 Re tr(A^dagger B), whatever the array held before. expand and expand_scaled give the combination of the generators, project_to_algebra and its scaled form the coordinates 2 Re tr(lambda^dagger A); projecting an expanded element gives it back and expanding a projection gives the antihermitian traceless part. dot and squarenorm are the traces of products of the expanded matrices, conjugation by a unitary matrix is conjugation of the matrix and keeps dot. The table of products holds the products, and the bilinear projections have the documented values.", "quantifier": "all N, algebra elements, matrices, generator indices and previous contents of the tables", "why_tests_cant": "identities for all real and complex arguments and all N; the defects need a second call or an asymmetric argument", "anchors": ["libraries/datatypes/sun_matrix.h: Algebra, expand, expand_scaled, project_to_algebra, project_to_algebra_scaled, generator_list, generator_product_list, project_to_algebra_bilinear, dot, left_conjugation, right_conjugation, Alg_gen"]}
{"id": "C51", "title": "Determinants of matrices of every size", "statement": "For every square matrix of every size, singular ones included, `det()`, `det_laplace()` and `det_lu()` return the determinant, and the LU variant never divides by zero.", "quantifier": "All sizes n >= 1 and all real or complex n x n matrices.", "why_tests_cant": "Pivoting, scaling and row exchanges take different paths for different matrices, the recursion over minors has no bound on its depth, and zero pivots occur only on a set of measure zero that random tests never hit.", "anchors": ["libraries/datatypes/matrix_linalg.h: det, det_laplace, det_lu, hila::Minor"]}
{"id": "C52", "title": "LU decomposition, solution of linear systems and inverse", "statement": "For every regular matrix `LU_decompose()` returns a permutation of the rows and a unit lower and an upper triangular factor whose product is the permuted matrix; `solve(b)` returns the solution of A x = b and `invert()` the inverse, without division by zero. For a singular matrix the result is not to be mistaken for a decomposition.", "quantifier": "All sizes, all regular real or complex matrices, all right-hand sides; singular matrices.", "why_tests_cant": "The order of the rows depends on all elements of the matrix; the singular case has measure zero.", "anchors": ["libraries/datatypes/matrix_linalg.h: LU_decompose, LU_result::solve, LU_result::invert, LU_solve", "libraries/datatypes/matrix.h: LU_result"]}
{"id": "C53", "title": "Eigenvalues and eigenvectors of hermitean matrices", "statement": "eigen_hermitean applied to any hermitean (or real symmetric) matrix ends, and returns real numbers E and a matrix U that is unitary and for which U\u2020 H U has the diagonal E and off-diagonal elements that are zero to the relative precision of double. With sort::ascending or sort::descending the eigenvalues are ordered and the columns of U are permuted with them.", "quantifier": "every size, every real symmetric and complex hermitean matrix, every sort order", "why_tests_cant": "Jacobi iterations stop on a test of one matrix element and at a limit of rotations; a test sees some matrices, and not whether the limit leaves a remainder for another one. Degenerate and zero eigenvalues and size 1 are the cases that random matrices never show.", "anchors": ["libraries/datatypes/matrix_linalg.h: eigen_hermitean, hila::find_largest_offdiag, hila::diagonalize_2x2, GivensMatrix", "libraries/datatypes/diagonal_matrix.h: sort", "libraries/datatypes/matrix.h: permute_columns"]}
{"id": "C54", "title": "Singular value decomposition", "statement": "svd and svd_pivot of any square matrix A return U, S, V with U and V unitary, S real and not negative, and A = U S V\u2020. With a sort order the singular values are ordered and the columns of U and V are permuted with them. The two programs use no variable without a value.", "quantifier": "every size, every real and complex square matrix, every sort order", "why_tests_cant": "The product U S V\u2020 is right even when U is far from unitary, so the obvious test passes; rank deficient and badly scaled matrices have measure zero in a random test; a variable without a value usually still holds the right number in an unoptimised build.", "anchors": ["libraries/datatypes/matrix_linalg.h: svd, svd_pivot, hila::diagonalize_2x2, GivensMatrix", "libraries/datatypes/diagonal_matrix.h: sort", "libraries/datatypes/matrix.h: permute_columns"]}
{"id": "C55", "title": "Projection to SU(N) and random group elements", "statement": "reunitarize turns every regular matrix into an element of SU(N): the rows are orthonormalised from the first to the last and one phase fixes the determinant. It leaves the elements of SU(N) as they are, and positive multiples of them become the element. It commutes with multiplication by a group element from the right. make_unitary gives the only unitary matrix that differs from its argument by a lower triangular matrix with positive diagonal. random gives an element of SU(N) for all random numbers, uses a fixed number of them, and every element of the group can occur.", "quantifier": "every N, every complex matrix, every stream of random vectors, every number of hits", "why_tests_cant": "That the result is in the group for all matrices and that the whole group can be reached are statements about continua; a test with random input never meets linearly dependent rows.", "anchors": ["libraries/datatypes/sun_matrix.h: SU::make_unitary, SU::fix_det, SU::reunitarize, SU::random", "libraries/datatypes/matrix.h: mult_by_2x2_left", "libraries/datatypes/matrix_linalg.h: det"]}
{"id": "C56", "title": "Wilson lines", "statement": "The Wilson line of a path of at least two steps is, at each site, the ordered product of the links along the path that ends at that site, with the adjoint link for a step against its direction. Under a gauge transformation it changes only at its two ends, so the trace of a closed path does not change. Shorter paths read outside of the list.", "quantifier": "for all lattice sizes, numbers of directions, N, link fields, paths and gauge transformations", "why_tests_cant": "the path is arbitrary; a test compares a few loops on one field and cannot see a wrong neighbour that cancels in a symmetric loop", "anchors": ["libraries/gauge/wilson_line_and_force.h:get_wilson_line"]}
{"id": "C57", "title": "Gauge forces are gradients of their actions", "statement": "Along every curve of links that starts with derivative a U, the derivative of the measured action is the product of a with the computed force, with the same factor for the plaquette action, for an arbitrary closed loop and for the improved action. The force is the only field with this property, and the adding versions add exactly it.", "quantifier": "for all lattice sizes, at least two directions, all N, link fields, curves, coefficients and closed paths", "why_tests_cant": "energy conservation of the molecular dynamics depends on it; a wrong factor or sign only shows as a lower acceptance or a slightly different step size", "anchors": ["libraries/gauge/wilson_plaquette_action.h:get_force_wplaq_add", "libraries/gauge/improved_action.h:get_force_impr_add", "libraries/gauge/wilson_line_and_force.h:get_wloop_force_add"]}
{"id": "C58", "title": "Clover field strength, action, energy and topological charge", "statement": "The four leaves are a quarter of the four plaquette loops that touch the site, and both implementations of the field strength give the antihermitean traceless part of their sum. The clover action, the energy and the topological charge do not change under gauge transformations; the energy is 2N times the action; a reflection of any axis changes the sign of the charge and leaves the energy. The force is the gradient of the action with the same factor as for the other actions.", "quantifier": "for all lattice sizes, N, unitary link fields, gauge transformations, axes and curves", "why_tests_cant": "the code transports partial products through shared temporary fields; a wrong shift gives a plausible number, and the charge of a test field is not known exactly", "anchors": ["libraries/gauge/clover_action.h:get_clover_leaves", "libraries/gauge/clover_action.h:get_force_clover_add", "libraries/gauge/energy_and_topo_charge_clover.h:measure_topo_charge_and_energy_clover"]}
{"id": "C59", "title": "Removal of Gauss' law violation converges to the nearest physical field", "statement": "The Gauss violation is the gauge covariant divergence of the electric field. Every call of degauss_step is gauge covariant, leaves fields without violation unchanged and does not change the physical part of the field. In up to three dimensions the violation never grows, repeated steps converge to the nearest field without violation, and degauss leaves at most the requested violation.", "quantifier": "all lattices, all N, all unitary link fields, all electric fields, all qualities", "why_tests_cant": "convergence for every gauge background and field, and that the limit is the nearest field, are statements about a spectrum that samples cannot bound", "anchors": ["libraries/gauge/degauss.h: get_gauss_violation, gauss_fix_step, degauss_step, degauss"]}
{"id": "C60", "title": "Gradient flow integrates the flow equation of its action for exactly the requested time", "statement": "The flow force of every action is the negative gradient of the action it belongs to, so short steps decrease the action, and the printed energy derivatives are the derivatives of the measured energies along the flow. do_gradient_flow_adapt returns for every field; the returned field was reached by third order Runge-Kutta steps with an error below the tolerance whose lengths add up to l_end^2/8 - l_start^2/8, rejected steps leave no trace and links stay in SU(N). The flow commutes with gauge transformations.", "quantifier": "all lattices, all N, all SU(N) fields, all flow intervals, tolerances and first step sizes, all gauge transformations", "why_tests_cant": "termination of the adaptive loop, the exact total time and gauge covariance are statements about all fields; a test sees one field and cannot see a term that is only wrong in another gauge", "anchors": ["libraries/gauge/gradient_flow.h: get_gf_force, get_zeuthen_flow_force, measure_gf_s, measure_dE_wplaq_dt, measure_dE_clov_dt, do_gradient_flow_adapt"]}
{"id": "C61", "title": "The Cayley-Hamilton exponential and its derivative", "statement": "chexp(A) is the Taylor polynomial of A/2^nb with at least n and at most 25n terms, squared nb times, where nb is the smallest number of halvings that bring the norm below sqrt(2), for every rounding of the sum with which the iteration is stopped; its distance to exp(A) is bounded accordingly. The coefficients returned by chexpk represent the derivative of the same function in every direction, and chexp with derivatives, mult_chexp and mult_chexpk_fast return the derivatives and the traces computed with them. chsexp computes the exponential too (false: sign of the characteristic polynomial), and chexp returns the number of iterations (false when the matrix is scaled).", "quantifier": "all matrix sizes from 2 on, all real and complex matrices, all contents of the work arrays, all rounding functions of the stopping sum, all curves of matrices", "why_tests_cant": "The error bound and the identity of the derivative hold for every matrix; tests compare a few matrices of one size with another implementation of exp. The derivative code is only exercised for small norms.", "anchors": ["libraries/datatypes/matrix.h: chexp", "libraries/datatypes/matrix.h: chexpk", "libraries/datatypes/matrix.h: mult_chexp", "libraries/datatypes/matrix.h: mult_chexpk_fast", "libraries/datatypes/matrix.h: chsexp"]}
{"id": "C62", "title": "Stout smearing and its force", "statement": "If the functions of the matrix exponential are exact, stout_smear with a number of steps multiplies each link by the exponential of minus the coefficient times the traceless antihermitian part of the sum of its plaquettes, that many times; the versions with lists store every intermediate field. The smeared links stay in SU(N), and smearing commutes with gauge transformations. stout_smear_force turns the force of any action at the smeared field into the gradient of the smeared action with respect to the original links, and the two faster versions of it give the same result.", "quantifier": "every lattice, every number of dimensions, colours and steps, every gauge field, coefficient, action and force, all lengths of the lists", "why_tests_cant": "a test compares the force with a difference quotient on one configuration; wrong index bookkeeping of staples or a wrong sign in one of the twelve products can cancel there, and holds only for the tried dimension and number of steps", "anchors": ["libraries/gauge/stout_smear.h:staplesums", "libraries/gauge/stout_smear.h:stout_smear1", "libraries/gauge/stout_smear.h:stout_smear", "libraries/gauge/stout_smear.h:stout_smear_force", "libraries/gauge/stout_smear.h:get_stout_staples", "libraries/gauge/stout_smear.h:stout_smeark_force", "libraries/gauge/stout_smear.h:stout_smeark_force_b"]}
{"id": "C63", "title": "Bulk-preventing action and its force", "statement": "The inverse used in the bulk-preventing action is the inverse of its argument whenever there is one, and it divides by zero exactly for a singular argument. measure_s_bp is the sum over all plaquettes P of (1/N) Re tr (Omega^dagger Omega)^-2 - 1 with Omega = (1+P)/2, and is not finite exactly if some plaquette has the eigenvalue -1. Each summand is nonnegative, zero only for P = 1, and grows without bound when an eigenvalue of the plaquette approaches -1, so that such plaquettes are separated by a barrier. The action is gauge invariant. get_force_bp is finite whenever the action is, and it is the gradient of eps times the action; get_force_bp_add adds it to the given field.", "quantifier": "every lattice, every number of dimensions and colours, every gauge field and every smooth change of it, every eigenvector of a plaquette", "why_tests_cant": "the barrier and the finiteness are statements about all fields near the singular surface, which random tests never meet; a gradient is checked in tests only along some directions at some fields", "anchors": ["libraries/gauge/bulk_prevention_action.h:ch_inv", "libraries/gauge/bulk_prevention_action.h:bp_UAmat", "libraries/gauge/bulk_prevention_action.h:bp_iOsqmat", "libraries/gauge/bulk_prevention_action.h:measure_s_bp", "libraries/gauge/bulk_prevention_action.h:get_force_bp_add", "libraries/gauge/bulk_prevention_action.h:get_force_bp"]}
{"id": "C64", "title": "Logarithm of an SU(N) matrix", "statement": "log returns an element of the algebra whose exponential is the given SU(N) matrix: if the matrix is the exponential of an algebra element x with all angles below the square root of 3, the result differs from x by no more than a multiple of the tolerance or by what is left of a cubically convergent iteration after 5N passes. (False in general: for an element of the centre of SU(N) other than 1 the result is 0, and for every SU(2) matrix close to -1 the exponential of the result is far from the matrix, and there is no error message.)", "quantifier": "every N, every matrix with angles below the square root of 3, every tolerance; all elements of the centre; all SU(2) matrices close to -1", "why_tests_cant": "random matrices in a test are rarely close to the centre, and the number of passes that a matrix needs depends continuously on it without bound", "anchors": ["libraries/datatypes/sun_matrix.h:log", "libraries/datatypes/sun_matrix.h:project_to_algebra", "libraries/datatypes/sun_matrix.h:Algebra::expand"]}
{"id": "C65", "title": "Actions, energy and charge from logarithms of plaquettes: gauge invariance and force = gradient", "statement": "The log-plaquette action, the log-clover action, the topology suppression action and the energy and topological charge from logarithms do not change under gauge transformations, as long as the logarithms of the plaquettes exist. The log-plaquette action is never negative and is 0 only if all plaquettes are 1. Each force function adds the exact gradient of eps times its action to the momentum. (The last sentence holds for the log-plaquette action. It is false for the log-clover action and for the topology suppression action: there are fields where the action does not change along a direction in which the force has a component. For these two it holds where the logarithms that are multiplied commute.)", "quantifier": "every N, every lattice, every SU(N) gauge field with plaquette angles below pi, every curve of gauge fields through it, every eps", "why_tests_cant": "a force that is not the gradient still gives a plausible trajectory; only the acceptance rate of hybrid Monte Carlo suffers, and for smooth fields the difference is small", "anchors": ["libraries/gauge/log_plaquette_action.h:measure_s_log_plaq", "libraries/gauge/log_plaquette_action.h:get_force_log_plaq_add", "libraries/gauge/log_clover_action.h:get_log_clover_mat", "libraries/gauge/log_clover_action.h:get_force_log_add", "libraries/gauge/log_topo_supp_action.h:get_force_topo_supp_add", "libraries/gauge/energy_and_topo_charge_log.h:measure_topo_charge_and_energy_log"]}
{"id": "C66", "title": "The staggered Dirac operator is mass plus an antihermitean, gauge covariant difference, and its even-odd form and force belong to it", "statement": "For every gauge field and fermion field the staggered operator gives m \u03c8 minus the staggered difference with the boundary conditions of the field, its dagger is its adjoint, it is gauge covariant, commutes with its adjoint, is invertible for every mass other than zero, and its square without gauge field is the lattice Laplace operator. The even-odd preconditioned operator is the reduction of it to the even sites. The force function gives the derivative of scalar products with the operator along every change of the links.", "quantifier": "all lattice sizes and dimensions, all links, fields, masses, boundary conditions, contents of temporary fields", "why_tests_cant": "Tests use one field; an error of the phases, a sign or a conjugation is visible only in identities over all fields.", "anchors": ["libraries/dirac/staggered.h: dirac_staggered, dirac_staggered_evenodd, dirac_staggered_hop, dirac_staggered_calc_force, init_staggered_eta"]}
{"id": "C67", "title": "Forces of the pseudofermion and gauge actions in the HMC library are the gradients of the actions, and heat bath fields have the distribution of the action", "statement": "For an operator with adjoint and force, and an exact solution of the linear system, force_step changes the momentum by the gradient of the action, for the plain fermion action, the second Hasenbusch action and the gauge action. The action of a field drawn with draw_gaussian_fields is the sum of the squares of the Gaussian random numbers. The action as a field sums to the action.", "quantifier": "all links, fields, random numbers, step sizes, masses, operators with the stated properties", "why_tests_cant": "A wrong force only lowers the acceptance or spoils the conservation of energy slightly; a test at one configuration cannot show that it is the gradient everywhere.", "anchors": ["libraries/hmc/fermion_field.h: fermion_action, Hasenbusch_action_2", "libraries/dirac/Hasenbusch.h: Hasenbusch_operator", "libraries/hmc/gauge_field.h: gauge_action, add_momentum, calc_staples"]}
{"id": "C68", "title": "Boundary conditions: antiperiodic neighbours change sign exactly at the boundary", "statement": "For a field with boundary conditions, after the automatic communication f[X+d] equals the value at the periodic neighbour, multiplied by -1 exactly if the direction is antiperiodic and the step leaves the lattice, on every rank, for divided and undivided directions and for EVEN, ODD and ALL loops. Sends and receives match also with Dirichlet boundaries, the additional boundary elements do not overlap anything, and a shift by any displacement has the sign of the number of boundaries crossed.", "quantifier": "every lattice size and dimension, every distribution over ranks without empty ranks, every table of boundary conditions, every parity, direction, site and displacement", "why_tests_cant": "A test fixes a lattice, a rank layout and one direction; whether the sign is applied by the sender or by the local copy depends on the layout, and the sign is lost only for multi-step shifts over the boundary.", "anchors": ["libraries/plumbing/lattice.cpp: init_special_boundaries, get_neighbour_array, setup_special_boundary_array", "libraries/plumbing/lattice.h: is_on_edge", "libraries/plumbing/field.h: set_boundary_condition, boundary_need_to_communicate", "libraries/plumbing/field_comm.h: gather_comm_elements, set_local_boundary_elements, start_communication, shift", "libraries/plumbing/backend_cpu/field_storage_backend.h: set_local_boundary_elements, gather_elements_negated"]}
{"id": "C69", "title": "Vectorised backend: same neighbour values as the scalar code", "statement": "With the vectorised (AVX) backend every site of a rank has exactly one place (vector and lane), even sites first; a vectorised loop over EVEN, ODD or ALL visits exactly the sites of that parity and sees their coordinates; after communication f[X+d] reads, in every lane, the value at the periodic neighbour, whether this is in the same vector row, in another lane of the same rank or on another rank, for 32-bit and 64-bit number types; neighbour accesses stay inside the allocation and never share a halo slot; with antiperiodic boundary conditions the sign is minus exactly for steps out of the lattice; writing a site or a vector changes only that site or vector.", "quantifier": "every lattice size and dimension, every distribution over ranks and every division of a node into subnodes that the setup can choose, both lane counts, every direction, parity, site and field content", "why_tests_cant": "The vector layout depends on the division of the node into subnodes, on the direction and on the number type; a test fixes one. A wrong lane permutation or halo entry affects only a few sites on the subnode faces.", "anchors": ["libraries/plumbing/lattice.cpp: site_index (225-314), setup_nodes, create_std_gathers", "libraries/plumbing/backend_vector/lattice_vector.h: vectorized_lattice_struct, site_neighbour, coordinates, loop_begin, loop_end", "libraries/plumbing/backend_vector/field_storage_backend.h: get_vector, set_vector, set_element, get_element, set_local_boundary_elements, gather_comm_vectors, place_recv_elements", "libraries/plumbing/field_comm.h: gather_comm_elements, place_comm_elements, set_local_boundary_elements", "libraries/plumbing/backend_vector/setup_layout_vector.cpp"]}
{"id": "C70", "title": "Source-to-source edits: the output is the input with exactly the requested edits", "statement": "After any sequence of insertions, removals, replacements, prepends and appends in a piece of source text, the text written out (and every part of it that is read back) is the original text with exactly these edits at exactly these original positions; edits outside the text are refused; no two positions share an inserted text. Copying a part gives the edited text of that part; commenting out a range comments every line of it and nothing else; removing an argument removes it with exactly one neighbouring comma; inserted lines get the indentation of the line they are inserted in.", "quantifier": "every source text, every finite sequence of edits at every position, every sub-range", "why_tests_cant": "Edits refer to original positions and interact through a shared index table; a test fixes one text and one order of edits, and a wrong interaction shows only for particular orders (insert into a removed range, prepend before a removed end).", "anchors": ["hilapp/src/srcbuf.cpp: srcBuf::create, get, dump, remove, insert, replace, comment_range, copy_from_range_and_map, remove_with_comma", "hilapp/src/srcbuf.h: srcBuf"]}
{"id": "C71", "title": "Template specialisation: names are replaced exactly where they are names", "statement": "When template parameters are substituted in the text of a specialised function, every occurrence of a parameter as a complete identifier is replaced by its value, and nothing else changes: not parts of longer identifiers, numbers, string and character literals, or comments. The reported number of replacements is the number of such occurrences.", "quantifier": "every text that is a sequence of identifiers, numbers, literals, comments and other characters, every list of names and values, every range of the text", "why_tests_cant": "The result depends on the lexical structure around each occurrence; tests use a few hand-written templates, whereas a wrong character class or a wrong end of a literal shows only for particular neighbouring characters.", "anchors": ["hilapp/src/srcbuf.cpp: srcBuf::replace_tokens", "hilapp/src/toplevelvisitor.cpp: specialize_function_or_method"]}
{"id": "C72", "title": "Words in pragmas, types and generated names are recognised as complete words", "statement": "A name is found in a list of names (pragma arguments, function heads, type names) exactly if it occurs there as a complete word; the vectorised form of a type is the type with every occurrence of the number type as a complete word replaced; a pragma is recognised exactly if its words are the words at the beginning of the line, and its remainder is the rest of the line; names for generated variables are legal and different for different fields; a commented-out text has the comment sign on every line; removal of extra white space keeps the sequence of words.", "quantifier": "every text, every name and every starting position; every type name; every pragma line", "why_tests_cant": "Whether a name is found depends on the other names in the same text; tests use names that are not parts of each other.", "anchors": ["hilapp/src/stringops.cpp: find_word, contains_word_list, clean_name, comment_string, remove_extra_whitespace", "hilapp/src/vectorization_info.cpp: is_vectorizable_type", "hilapp/src/toplevelvisitor.cpp: pragma handling", "hilapp/src/hilapp.cpp: pragma handling"]}
{"id": "C73", "title": "Command line of hilapp: compiler options reach the compiler, nothing is lost", "statement": "Options -D and -I with joined or separate values given before -- are passed on behind --, in their order and with their values; all other arguments keep their order; no argument is lost or invented; the last given C++ standard is used and an unknown one is refused.", "quantifier": "every list of command line arguments, with or without --", "why_tests_cant": "The arguments are moved inside one array while it is scanned; an error in the bounds shows only for particular orders of joined and separate options.", "anchors": ["hilapp/src/stringops.cpp: handle_cmdline_args"]}
{"id": "C74", "title": "Reductions on graphics processors do not depend on how the threads run", "statement": "On a graphics processor, a loop over sites that adds to (or multiplies) a variable or the elements of a reduction vector ends with exactly the contributions of all sites of the loop on that rank, each counted once: for every number of sites, number of threads in a block, restriction of the number of blocks, order in which threads and blocks run, and content of uninitialised device memory; also when communication overlaps with the loop, and when atomic operations are used instead of private copies.", "quantifier": "all commutative types of values, loop bodies, ranges of sites, kernel geometries, interleavings of the memory accesses of threads, contents of uninitialised memory", "why_tests_cant": "A test runs one schedule on one device with one kernel geometry; a race, a block that is counted twice, memory that happens to be zero or a block that writes behind the end of an array shows only for other sizes or by accident.", "anchors": ["hilapp/src/codegen_gpu.cpp:generate_code_gpu", "libraries/plumbing/backend_gpu/gpu_templated_ops.h:gpu_reduce_sum", "libraries/plumbing/backend_gpu/gpu_templated_ops.h:gpu_reduce_product", "libraries/plumbing/backend_gpu/gpu_templated_ops.h:sum_blocked_vectorreduction", "libraries/plumbing/backend_gpu/gpu_templated_ops.h:atomic_Add"]}
{"id": "C75", "title": "With overlapping communication every site still has one slot, and the first kernel never reads the halo", "statement": "When the program is built so that kernels overlap with communication, the sites of a rank are stored in four groups: inner sites and sites at the boundary of the rank's box, each with even sites first. Sites and slots are still in one-to-one correspondence; the one or two ranges of slots that a site loop runs over contain exactly the sites of the loop's parity, each once; at every site of the first of two ranges, no neighbour lies on another rank; and the sites that a rank sends are in the order in which the receiver stores them in its halo.", "quantifier": "every lattice dimension, size and division onto ranks, every rank, every parity, with and without gathering, every direction", "why_tests_cant": "A wrong slot or range only shows for particular box sizes, parities of the box corner and numbers of ranks; reading the halo too early is a race that usually gives correct numbers.", "anchors": ["libraries/plumbing/lattice.cpp:construct_index_map", "libraries/plumbing/lattice.cpp:loop_ranges", "libraries/plumbing/lattice.cpp:is_boundary_site", "libraries/plumbing/lattice.cpp:site_index", "libraries/plumbing/lattice.cpp:create_std_gathers", "libraries/plumbing/lattice.h:iter_range_t"]}
{"id": "C76", "title": "Site selection on graphics processors returns exactly the selected sites", "statement": "After a site loop with a selection variable on graphics processors, rank 0 has the coordinates of exactly the sites of the loop that the body selected, none twice, limited to the maximal size; with values, each entry is the last value selected at its site; and the overflow counts the entries left out. This does not depend on the order in which the threads run or on what the device memory contained before.", "quantifier": "every lattice size and division onto ranks, every loop body, every interleaving of the threads, every content of fresh device memory, every limit, selections with and without values", "why_tests_cant": "Fresh device memory is often zero, and thread schedules cannot be chosen in a test; a loop over one parity then usually gives the right sites.", "anchors": ["libraries/plumbing/site_select.h:copy_data_to_host_vector", "libraries/plumbing/site_select.h:endloop_action", "libraries/plumbing/site_select.h:join_data_vectors", "hilapp/src/codegen_gpu.cpp:generate_code_gpu"]}
{"id": "C77", "title": "The code generated for a site loop does what its body says", "statement": "For every body of a site loop and every content of the fields at a site, the code hilapp generates (copying f[X] to local variables where its analysis finds a read, running the body on them and copying assigned ones back) leaves the fields, and hands to reduction vectors, exactly what the body says. In particular no variable is used or stored before it has a value, and fields not assigned on the path taken keep their values.", "quantifier": "all loop bodies built from assignments, compound assignments, local variables, conditionals, loops, tables, reduction vectors and continue, all field contents", "why_tests_cant": "whether a read is needed depends on statement order, nesting and conditions; a missing load only shows as garbage on sites where a branch is not taken, and optimised builds often hide it", "anchors": ["hilapp/src/toplevelvisitor.cpp:handle_loop_body_stmt", "hilapp/src/toplevelvisitor.cpp:handle_field_X_expr", "hilapp/src/toplevelvisitor.cpp:handle_bracket_var_ref", "hilapp/src/toplevelvisitor.cpp:check_field_ref_list", "hilapp/src/codegen_cpu.cpp:generate_code_cpu", "hilapp/src/codegen_gpu.cpp:generate_code_gpu"]}
{"id": "C78", "title": "Site loops give the values of a loop over all sites at once, whatever messages are under way", "statement": "A program of site loops over several fields, with neighbour references, and of explicit gathers leaves in every field the values that result when each loop acts on all its sites at once and neighbours are those of the periodic lattice. No rank aborts or waits for a message that nobody sends. This holds although sites are done while messages are under way, in whatever order and by however many threads the sites are done.", "quantifier": "all programs, numbers of fields, lattice sizes and divisions with even divided extents, orders of sites in both passes, contents of halo slots while a message is under way", "why_tests_cant": "reading a halo slot too early or marking the wrong sites as independent of messages only shows when a message happens to be late, and the order of sites of threads cannot be controlled", "anchors": ["hilapp/src/codegen_cpu.cpp:generate_code_cpu", "libraries/plumbing/field_comm.h:start_gather", "libraries/plumbing/field_comm.h:wait_gather", "libraries/plumbing/lattice.cpp:initialize_wait_arrays", "libraries/plumbing/field.h:mark_changed"]}
{"id": "C79", "title": "Reduction variables in loops on processors get every contribution once, with any number of threads", "statement": "After a site loop that adds to and subtracts from variables, each variable is its old value on rank 0 plus the contributions of all visited sites of the lattice; after a loop that multiplies, it is the old value times the factors of all visited sites. This does not depend on the division of the lattice, the passes over the sites, the number of threads or the order in which they finish, and the translator rejects bodies for which it would.", "quantifier": "all bodies, lattices, divisions, distributions of sites onto passes and threads, orders of combination, with and without OpenMP", "why_tests_cant": "the number of threads and the order in which they finish vary between runs; tests without OpenMP, or of sums only, do not see products", "anchors": ["hilapp/src/codegen_cpu.cpp:generate_code_cpu", "hilapp/src/codegen.cpp:handle_reduction_init", "hilapp/src/codegen.cpp:handle_reduction_result", "hilapp/src/toplevelvisitor.cpp:get_reduction_type", "hilapp/src/toplevelvisitor.cpp:check_var_info_list", "libraries/plumbing/reduction.h:product"]}
{"id": "C80", "title": "Vectorised loop bodies do at every site what the body does there", "statement": "If the translator accepts the body of a site loop for vectorisation, then running the body once on a vector of sites compiles and leaves in every field at every one of these sites what running the body there alone leaves. Variables of the body that the translator keeps as ordinary variables have the same value at all sites.", "quantifier": "all bodies, all chains of assignments between variables in any order, all values of the fields and numbers of sites in a vector", "why_tests_cant": "whether a variable depends on the site follows from chains of assignments of any length, also from later to earlier ones in loops; tests contain a few bodies, and a wrong mark shows only for values that differ between the sites of one vector", "anchors": ["hilapp/src/depends_on_site_visitor.cpp:is_site_dependent", "hilapp/src/toplevelvisitor.cpp:check_var_info_list", "hilapp/src/toplevelvisitor.cpp:handle_loop_body_stmt", "hilapp/src/generalvisitor.cpp:handle_var_ref", "hilapp/src/codegen_avx_new.cpp:is_vectorizable_type", "libraries/vectorclass/vectori256.h:operator &&"]}
{"id": "C81", "title": "Evolution in real time keeps Gauss' law, can be reversed and does not depend on when it is measured", "statement": "The measured fields of a trajectory are those of the leapfrog integrator after 0, m, 2m, ... steps with the times belonging to them, where m is the interval of measurements, and the trajectory has the requested length. The violation of Gauss' law is the same at all measurements, at every site; the links stay unitary. Running back with the opposite electric field leads to the start. The evolution commutes with gauge transformations, and energy and topological charge are gauge invariant. The energy changes in second order of the step only.", "quantifier": "all gauge fields and electric fields, lattices and dimensions from 2, sizes of the group, step sizes, lengths and intervals", "why_tests_cant": "conservation laws, reversibility and gauge covariance are identities over all configurations and numbers of steps; a test sees a few runs, in which a wrong staple or sign looks like a discretisation error", "anchors": ["applications/sun_realtime/src/sun_realtime.cpp:update_E", "applications/sun_realtime/src/sun_realtime.cpp:update_U", "applications/sun_realtime/src/sun_realtime.cpp:do_trajectory", "applications/sun_realtime/src/sun_realtime.cpp:thermalize", "applications/sun_realtime/src/sun_realtime.cpp:measure_stuff", "applications/sun_realtime/src/sun_realtime.cpp:calc_topoCharge"]}
{"id": "C82", "title": "Complex numbers compute the field of complex numbers and its elementary functions", "statement": "Every operator of Complex and of imaginary numbers (sums, products, quotients, compound assignments, mixed forms with scalars, conj_mul, mul_conj, polar, comparisons, I times objects that contain complex numbers) returns the value of the field of complex numbers. Division fails exactly for the divisor zero. exp, log, sqrt, cbrt, pow, sin, cos, tan, sinh, cosh, tanh and atan are the functions of the complex plane on the principal branch. asin, acos, asinh, atanh and acosh return inverse images in the strip of the principal branch and agree with the real functions on real arguments.", "quantifier": "all complex numbers, all real scalars, objects with any number of complex entries", "why_tests_cant": "identities over the whole complex plane with branch cuts; tests evaluate a few points and miss half planes", "anchors": ["libraries/datatypes/cmplx.h:Complex", "libraries/datatypes/cmplx.h:Imaginary_t", "libraries/datatypes/cmplx.h:operator/=", "libraries/datatypes/cmplx.h:sqrt", "libraries/datatypes/cmplx.h:pow", "libraries/datatypes/cmplx.h:acosh"]}
{"id": "C83", "title": "Operators and functions of matrices and vectors compute those of linear algebra", "statement": "Sums, differences, multiples, products, compound assignments, fused products with sums, adjoints, traces, scalar and outer products, norms, powers, multiplication with a 2x2 block, rows, columns, diagonals, permutations, transposes, lists and comparison of matrices and vectors give the value of linear algebra with all elements set, for every size, also when an argument is the object that is assigned. Division fails exactly for the divisor zero.", "quantifier": "all sizes, all elements of a field with conjugation, all powers, all permutations", "why_tests_cant": "identities over all sizes and elements; tests use few sizes, where an index error in the row stride of a matrix that is not square, or an argument overwritten while it is read, does not show", "anchors": ["libraries/datatypes/matrix.h:Matrix_t", "libraries/datatypes/matrix.h:operator*", "libraries/datatypes/matrix.h:operator+=", "libraries/datatypes/matrix.h:mult_aa", "libraries/datatypes/matrix.h:mult_add", "libraries/datatypes/matrix.h:mult_by_2x2_left", "libraries/datatypes/matrix.h:pow"]}
{"id": "C84", "title": "Diagonal matrices stand for square matrices in all operations", "statement": "A diagonal matrix behaves as the square matrix with these elements on the diagonal: sums, differences, products and quotients of diagonal matrices, with scalars and with matrices and vectors of any number of columns, compound assignments, comparison, trace, determinant, adjoint, norm, exponential, roots, logarithm, powers and trigonometric functions. All elements of a result are set and the result has the size of the product. Division fails exactly if a divisor is zero.", "quantifier": "all sizes, all elements of a field, all scalars, including elements of the matrix itself", "why_tests_cant": "identities over all sizes and elements; tests use square matrices and scalars that are not elements of the matrix, where wrong result types and arguments changed while they are read do not show", "anchors": ["libraries/datatypes/diagonal_matrix.h:DiagonalMatrix", "libraries/datatypes/diagonal_matrix.h:operator*", "libraries/datatypes/diagonal_matrix.h:operator/=", "libraries/datatypes/diagonal_matrix.h:operator==", "libraries/datatypes/matrix.h:mat_x_mat_type", "libraries/datatypes/matrix.h:diagonal"]}
{"id": "C85", "title": "Hybrid Monte Carlo keeps the distribution of the action", "statement": "If links are distributed with weight exp(-S), or with weight det(D\u2020D) exp(-S) when pseudofermions are included, they have the same distribution after an update with hybrid Monte Carlo, for every hierarchy of integrators, step size, number of steps and force; this holds for update_hmc of the library and for a turn of the program suN_hmc, whose momenta are drawn with the default width. A trajectory whose action is not a number is not accepted.", "quantifier": "all finite lattices, gauge groups with an invariant measure (SU(N) for the application), actions, forces, integrators, step sizes and numbers of steps", "why_tests_cant": "A statement about probability distributions on a continuous space: tests see samples with statistical errors and cannot exclude a small bias.", "anchors": ["libraries/hmc/hmc.h:update_hmc", "libraries/hmc/integrator.h", "libraries/hmc/gauge_field.h:gauge_momentum_action", "applications/suN_hmc/src/suN_hmc.cpp:do_trajectory", "applications/suN_hmc/src/suN_hmc.cpp:main", "libraries/datatypes/sun_matrix.h:Algebra::gaussian_random"]}
{"id": "C86", "title": "Gaussian random numbers and random elements of SU(2) have the promised distribution", "statement": "If hila::random() gives independent numbers that are uniform in [0,1), then whatever sequence of gaussrand, gaussrand2 and gaussian_random calls (numbers, complex numbers, real and complex matrices and vectors, algebras, SU2) a program makes, the components they fill are independent normal numbers with mean 0 and variance width^2, also when a number is left over from an earlier call. SU2::random and SU<2>::random give the invariant distribution of SU(2). After seed_random the same seed gives the same numbers.", "quantifier": "All sequences of calls, all sizes, widths and memory contents, processors and GPUs; almost every stream of uniform numbers; all histories before seeding.", "why_tests_cant": "A test sees finitely many samples of finitely many call sequences; equality of distributions, independence across left-over numbers and reproducibility after any history are statements about all streams and histories.", "anchors": ["libraries/plumbing/random.cpp: hila::gaussrand2, hila::gaussrand, hila::seed_random", "libraries/plumbing/random.h: hila::gaussian_random", "libraries/datatypes/matrix.h: Matrix_t::gaussian_random", "libraries/datatypes/cmplx.h: Complex::gaussian_random", "libraries/datatypes/su2.h: SU2::random, SU2::gaussian_random, Algebra<SU2>::gaussian_random", "libraries/datatypes/sun_matrix.h: SU::random, Algebra::gaussian_random", "libraries/datatypes/u1.h: U1::gaussian_random"]}
{"id": "C87", "title": "The heat bath samples the distribution of the link", "statement": "If the random numbers are independent and uniform in [0,1), a heat bath update of a link with staple S keeps the distribution with weight exp(beta/N Re Tr U S\u2020) (suN_heatbath, any N), and KennedyPendleton gives a link of SU(2) with weight exp(-Re Tr U S\u2020), whatever link was there before.", "quantifier": "All N, couplings beta > 0, staples, sets of links; almost every stream of uniform numbers.", "why_tests_cant": "Equality of distributions on a continuous group for every staple; a bias from trials that run out is far below statistical errors of any test.", "anchors": ["libraries/gauge/sun_heatbath.h: suN_heatbath", "libraries/gauge/KennedyPendleton.h: KennedyPendleton"]}
{"id": "C88", "title": "The spin programs keep the distribution of their models", "statement": "If the spins have the distribution with weight exp(beta sum s s') (ising) or exp(beta sum cos(s - s')) (xy) and the random numbers of the ranks are independent and uniform, the spins have the same distribution after any number of updates, whatever the distribution of the sites to ranks and the order in which sites are visited; each site follows the Metropolis rule.", "quantifier": "All lattices with even extents, couplings, ownerships of sites, visiting orders, choices of halo or local reads, numbers of loops.", "why_tests_cant": "Equality of distributions on all configurations; races between neighbouring sites show only on some rank layouts and orders.", "anchors": ["applications/ising/ising.cpp: main", "applications/xy/xy.cpp: main", "libraries/plumbing/random.h: random"]}
{"id": "C89", "title": "The updates of the SU(N) gauge program keep the distribution of Wilson's action", "statement": "If the links have the distribution with weight exp(-beta sum over plaquettes (1 - Re tr P / N)) and the random numbers of the ranks are independent and uniform, then after a trajectory (overrelaxation and heat bath of all links, directions and parities in random order, with the staples computed once for each direction and parity) the links have the same distribution. A sweep of overrelaxation keeps the action of every configuration.", "quantifier": "All even lattices with at least two dimensions, N, beta > 0, ownerships of sites, visiting orders, numbers of updates and sweeps, sets of gauge fields.", "why_tests_cant": "Equality of distributions on all configurations; staples that are stale because a neighbouring link was already updated show only as a small bias.", "anchors": ["applications/suN_gauge/src/suN_gauge.cpp: update, update_parity_dir, do_trajectory", "libraries/tools/sun_heatbath.h: suN_heatbath", "libraries/tools/sun_overrelax.h: suN_overrelax", "libraries/tools/gaugefield.h: staplesum, reunitarize_gauge", "libraries/plumbing/shuffle.h: shuffle_directions_and_parities"]}
{"id": "C90", "title": "The Wilson Dirac operator and its spinors", "statement": "For two to five dimensions the gamma matrices of Wilson vectors are hermitean, anticommute and square to one; half vectors carry exactly what 1 +- gamma keeps; Dirac_Wilson::apply is the Wilson operator with links in both directions, dagger its adjoint, both gauge covariant and independent of earlier contents of the temporary fields; the even-odd operator is the Schur complement of the full one; force is the derivative of the scalar product with respect to the links.", "quantifier": "all dimensions 2 to 5, numbers of colours, lattice sizes, boundary conditions, link fields, spinor fields, hopping parameters, earlier contents of the temporary and output fields", "why_tests_cant": "A wrong hopping term still gives a smooth linear operator; only the operator identity on every site, or the adjoint relation for all pairs of fields, shows it.", "anchors": ["libraries/datatypes/wilson_vector.h: Wilson_vector, HalfWilsonVector, expand, squarenorm, outer_product", "libraries/dirac/wilson.h: Dirac_Wilson_hop, Dirac_Wilson_hop_set, Dirac_Wilson, Dirac_Wilson_evenodd, Dirac_Wilson_calc_force"]}
{"id": "C91", "title": "The representations of SU(N) and their forces", "statement": "The adjoint, the antisymmetric and the symmetric representation of a link are homomorphisms into the orthogonal or the unitary matrices: the adjoint one rotates the generators, the other two act on the antisymmetric or the symmetric matrices by B -> m B m^T. represented_generator_I is the represented generator times i, and project_force turns the force on a represented link into the force on the link: its scalar product with every direction is the derivative of Re tr(rho(U) F) in that direction.", "quantifier": "all N, all unitary matrices, all bases of generators with the usual normalisation, all forces, all directions and all curves of links", "why_tests_cant": "A test compares the force with a difference quotient in a few directions on a few matrices for one N; the claim covers all directions, among them those of the last generators.", "anchors": ["libraries/datatypes/representations.h: adjointRep, antisymmetric, symmetric, represent, represented_generator_I, project_force, generator"]}
{"id": "C92", "title": "The surface program samples the action with two couplings and keeps the Polyakov loop under control", "statement": "suN_gauge_surface: the staples for two couplings are those of the measured action, and a trajectory keeps the distribution of this action. In the mode with a range or a potential for the Polyakov loop, the value the program works with is always the Polyakov loop of the links, rejected links are restored exactly, the distance from the range never grows, and acceptance with the potential satisfies detailed balance. Smearing keeps the sum and the bounds of the field of Polyakov loops. The search of the surfaces starts between the minimum and the maximum of the profile, reads only the line, and gives the height at which the linear interpolation has the level.", "quantifier": "all lattices of even sizes, numbers of colours, couplings, ranks, orders of the sites, random numbers, ranges, profiles, lines and levels", "why_tests_cant": "The distribution of fields after an update is not visible in single runs. Rejection of only one of the parities, profiles without positive values and lines without a surface are rare in short test runs.", "anchors": ["applications/suN_gauge_surface/src/suN_gauge_surface.cpp: staplesum_db, measure_plaq_db, smear_polyakov_field, measure_polyakov_surface, update, update_parity_dir, do_trajectory, polyakov_potential, accept_polyakov, update_once_with_range"]}
{"id": "C93", "title": "The GPU memory pool gives no memory out twice and leaves no fragments", "statement": "Whatever a program asks for and gives back, in whatever order: the allocations in use lie apart from one another, inside the memory that came from the system; no call follows a bad pointer or runs forever; exactly the addresses in use can be given back, any other address ends the program. Neighbouring free pieces are always joined: if an unused interval is large enough the request is served without new memory, from the end of a smallest gap that is large enough. The addresses are multiples of 256, and the program ends for lack of memory only when the limits on the memory of the pool are reached.", "quantifier": "all histories of allocations and releases, all sizes, all devices and all addresses that the system returns", "why_tests_cant": "An overlap of allocations shows up only as wrong values in some field much later, for particular orders of allocation and release; fragmentation only in long runs.", "anchors": ["libraries/plumbing/backend_gpu/memory_pool2.cpp: gpu_memory_pool_alloc, gpu_memory_pool_free, split_free_block, merge_block_down_free, merge_block_up_free, gpu_memory_pool_init"]}
{"id": "C94", "title": "The program for integer link fields samples its action", "statement": "The program z_link_model has an integer on every link and a shift on every plaquette. Its Metropolis updates, its overrelaxation with rounding, its updates of the shifts and its moves of all links keep the weight exp(-action) of the configurations for every order in which the loops visit the sites and every distribution of sites to ranks; no element is used before it is assigned. The shift of all links at the end of a trajectory changes no plaquette, and the measured density, the plaquettes and their duals are those of the action.", "quantifier": "all dimensions from two on, all even sizes of lattices, all couplings, all numbers of updates of the four types, all shifts at the start, all visit orders, all distributions of sites to ranks, all sets of configurations", "why_tests_cant": "Detailed balance of a rounded overrelaxation is a statement about all real staples and all integers; a small bias of the distribution is below the noise of every test run.", "anchors": ["applications/z_link_model/src/z_link_model.cpp: staplesum, z_metropolis, z_overrelax, sw_metropolis, update_parity_dir, update_or_parity_dir, update_sw_parity_dir, site_shift, update, do_trajectory, measure_s_plaq_dens, plaq_field, dual_plaq"]}
{"id": "C95", "title": "The multicanonical example samples exp(-S - W), and the written weights recover the canonical distribution", "statement": "For every lattice with even sizes, every table of sorted bin centres with as many weights, with and without hard walls: multican_update of the even or of the odd sites is defined for every field and all random numbers, and if the fields have the distribution with weight exp(-S - W), where S is the sum of -phi^2 + phi^4 over the sites and of the squares of the differences over the links and W is the weight at the mean value of the field, then so have the fields after the update, and after any sequence of such updates. The change of S at a site is the change of compute_local_action there. Before the last decision the pair of old and proposed field has the same distribution in both orders for exp(-S). Multiplied by exp(W), with W the number written beside each measurement, the sampled distribution is exp(-S).", "quantifier": "all dimensions, lattices with even sizes, parities, tables of weights, hard walls on or off, fields and random numbers; ideal random numbers: one normal and one uniform number for each site and one uniform number", "why_tests_cant": "A test sees histograms with statistical errors; a wrong sign or a missing neighbour term shifts them by an unknown amount", "anchors": ["applications/multicanonical_example/src/multicanonical_example.cpp: compute_local_action, order_parameter, multican_update, main", "libraries/tools/multicanonical.cpp: accept_reject, weight_function"]}
{"id": "C96", "title": "Time limits are read in the documented formats, the check leaves time for one more round, timers report their intervals", "statement": "setup_timelimit reads s, m:s, h:m:s and d-h:m:s as the number of seconds they denote, for all numbers that fit into 32 bits. With a time limit, whenever time_to_finish says no, a round that takes at most two minutes more than the longest round so far ends before the limit; once it has said yes it says yes at all later times; it says yes exactly if less than the longest round and two minutes remain. As long as timers are started and stopped alternately, for any number of timers made and destroyed in any order: the report reads only living timers and prints each used timer once, with the sum and the number of its intervals.", "quantifier": "all strings of digits, all limits, all increasing or other sequences of check times, all interleavings of operations on any number of timers", "why_tests_cant": "Tests run for seconds and see one order of events; the limit matters at the end of runs of days", "anchors": ["libraries/plumbing/timing.cpp: setup_timelimit, time_to_finish, timer::start, timer::stop, timer::reset, timer::remove, timer::report, report_timers", "libraries/plumbing/initialize.cpp: -t"]}
{"id": "C97", "title": "The FFT on graphics processors gives the result of the FFT on the CPU", "statement": "FFT and reflect of a field on graphics processors give, for every division of the lattice over ranks, every number of elements per site and every set of directions, the transform of all lines in these directions, the same as the code for the CPU. All accesses are inside of the arrays. The saved plans are used only for the transforms they were made for, and their common work area is large enough.", "quantifier": "All lattice sizes and divisions over ranks, element counts, sets of directions, one-dimensional transforms, orders of the threads of each kernel, contents of new memory; all sequences of requests for plans", "why_tests_cant": "Tests run on a few lattices whose extents are multiples of the number of ranks; whether the work array is large enough depends on the division of the columns over ranks, and the order of the threads is not controlled", "anchors": ["libraries/plumbing/backend_gpu/fft_gpu_transform.h: hila_fft_gather_column, hila_fft_scatter_column, hila_fft<T>::transform, hila_fft<T>::reflect, hila_saved_fftplan_t::get_plan", "libraries/plumbing/fft.h: full_transform", "libraries/plumbing/fft.cpp: init_pencil_direction"]}
{"id": "C98", "title": "Overrelaxation of a link with the matrix rotated towards its staple keeps the distribution", "statement": "`suN_max_staple_sum_rot(staple)` returns the matrix V in SU(N) that maximizes Re tr(V staple); `suN_overrelax(U, staple, beta)` reflects the link with such a matrix, U -> V U^+ V, tests the reflected link, and so keeps the distribution of the link with weight exp(beta/N Re tr(U staple^+)); for two colors, where nothing is tested, Re tr(U staple^+) stays the same. Neither fails for any staple.", "quantifier": "all numbers of colors, staples, couplings, tolerances, orders of the subgroups and random numbers", "why_tests_cant": "The claim is about a distribution on a continuous group, for every staple; a test sees a few links of one run, and a reflection with a matrix that is not optimal looks the same.", "anchors": ["libraries/gauge/sun_max_staple_sum_rot.h:suN_max_staple_sum_rot", "libraries/gauge/sun_max_staple_sum_rot.h:suN_overrelax", "libraries/plumbing/shuffle.h:shuffle", "libraries/gauge/sun_overrelax.h:suN_overrelax_dFJ"]}
{"id": "C99", "title": "The communication test at start-up finds wrong neighbours", "statement": "When the test of the gathers at the start of a program reports no error, every site has read the values of its neighbours in all directions; when the gathers are right it reports no error.", "quantifier": "all dimensions and lattice extents, all distributions of the sites over ranks, all behaviours of the neighbour reads, with and without even sites first", "why_tests_cant": "A correct build never makes the test fail, so that running it says nothing about whether it would find an error; which errors it misses depends on the lattice extents through integer overflow.", "anchors": ["libraries/plumbing/test_gathers.cpp:gather_test", "libraries/datatypes/matrix.h:squarenorm", "hilapp/src/codegen.cpp"]}
{"id": "C100", "title": "Partitions are independent runs", "statement": "A run with -partitions is divided into blocks of equal size; each block is a run of its own with ranks 0,1,..., its own directory, and random number generators that differ from those of all other ranks of all partitions.", "quantifier": "all numbers of partitions and ranks, all ranks, all common seeds", "why_tests_cant": "Needs large MPI runs; collisions of seeds and the wrap-around of products appear only for particular numbers of ranks.", "anchors": ["libraries/plumbing/initialize.cpp:setup_partitions", "libraries/plumbing/com_mpi.cpp:split_into_partitions", "libraries/plumbing/random.cpp:seed_random", "libraries/plumbing/com_mpi.h:partitions_struct"]}
{"id": "C101", "title": "Fields in the memory of graphics processors keep their values; messages and boundaries arrive as sent", "statement": "On graphics processors a value written to a site is the value read from it later and no other site changes. A list of elements taken from a field, a message between two ranks, and the antiperiodic boundaries inside a rank put exactly the (possibly negated) values of their sites to their places, whatever the order of the threads. This needs at most 2^32 numbers in the field of a rank, which the program does not check: beyond it the writes of one site change other sites.", "quantifier": "all numbers of sites and halo places, element sizes, site lists, block sizes, thread orders, parities and values", "why_tests_cant": "A test runs one lattice size on one device and sees one thread schedule; the wrap-around needs a field of tens of gigabytes, larger than any test uses.", "anchors": ["libraries/plumbing/backend_gpu/field_storage_backend.h", "libraries/plumbing/lattice.cpp:field_alloc_size"]}
{"id": "C102", "title": "The constant action flow moves every link along a surface of constant action", "statement": "The direction of the constant action flow is at every link the part of the given direction that is orthogonal to the gauge force, with length one. Along it the derivative of the action of the flow is zero, the measured energy derivative is the derivative of the plaquette energy, and gauge transformations commute with it. If the flow returns, the links were moved by accepted steps of total length t_len and stay in SU(N). The direction is undefined where a force vanishes, in particular on unit links, and rejected steps change the direction of the later flow.", "quantifier": "all gauge fields, directions, lattice sizes, dimensions, group sizes, flow lengths, tolerances and numbers of steps, for the actions Wilson, Luscher-Weisz, Iwasaki and DBW2", "why_tests_cant": "The derivative of the action along the flow is a statement about all fields; a run shows a small drift that is taken for the error of the integration. Vanishing forces do not occur on the random fields of tests.", "anchors": ["libraries/gauge/cs_flow.h:get_cs_force", "libraries/gauge/cs_flow.h:do_cs_flow_adapt", "applications/suN_gauge_csf/src/suN_gauge_csf.cpp"]}
{"id": "C103", "title": "Minimum and maximum of a field on graphics processors are the extremes of the whole lattice", "statement": "Field::min and Field::max on graphics processors return the smallest and largest value over the sites of the given parity on all ranks, together with the coordinates of a site of that parity where it is attained, for every content of the field, and the value is the one of the CPU version.", "quantifier": "every lattice, decomposition, storage order, parity, field content and number of ranks", "why_tests_cant": "The cases that fail need ranks without sites of a parity or without inner sites, together with extreme field values; tests use a few lattices and ordinary values, and tests of the GPU code need a GPU.", "anchors": ["libraries/plumbing/backend_gpu/gpu_minmax.h: Field::gpu_minmax, gpu_minmax_argreduce_range", "libraries/plumbing/reduction.h: Field::minmax, Field::min, Field::max", "libraries/plumbing/lattice.cpp: lattice_struct::loop_ranges"]}
{"id": "C104", "title": "hilapp finds the end of every parameter list and the word after it", "statement": "For every method called in a site loop hilapp finds the end of its parameter list, whatever the list contains (nested parentheses, literals, comments), and recognises the words out_only and const_function written after it. The same scan finds the end of template brackets and of lambda captures, where code is inserted.", "quantifier": "every source text: parameter lists with any nesting, literals and comments, any name before and any text after", "why_tests_cant": "The scan runs over raw source text; the set of texts is infinite and the failures depend on single characters inside comments and literals that tests of the preprocessor do not contain.", "anchors": ["hilapp/src/sourceloc_utils.cpp: getNextLoc, skipParens, skipString, getNextWord, findChar", "hilapp/src/loop_function.cpp: loop_function_check, methods with out_only and const_function", "hilapp/src/codegen_gpu.cpp: gpu_loop_function_marker", "hilapp/src/hilapp.cpp: PragmaDirective"]}
{"id": "C105", "title": "A site loop that draws random numbers is recognised", "statement": "hilapp marks a site loop as one that draws random numbers if and only if executing its body may reach a function that is a random number generator, through functions, methods and constructors of any depth and also through recursion; the analysis ends for every program. A loop so marked gets no OpenMP directive, so two threads never use the state of the generator at once; other loops lose their parallelism for no other reason than the documented ones.", "quantifier": "every finite program (set of functions with or without visible bodies, call graph, pragmas), every loop body", "why_tests_cant": "A missed call makes a data race on the state of the generator that shows up only with several threads and leaves plausible numbers; no test covers all call graphs.", "anchors": ["hilapp/src/contains_random_visitor.cpp: containsRandomChecker, contains_random", "hilapp/src/loop_function.cpp: handle_function_call_in_loop, handle_constructor_in_loop", "hilapp/src/loop_function_visitor.cpp: do_visit, visit_calls", "hilapp/src/codegen_cpu.cpp: generate_code_cpu"]}
{"id": "C106", "title": "The Taylor exponentials and the smearing force derived from them", "statement": "exp(A, order) of a matrix is the Taylor sum up to A^order and its distance from the exponential function is at most |A|^(order+1)/(order+1)! e^|A|. mult_exp(A, M, r, dr, order) gives r = M exp(A, order), and dr is the exact derivative of tr(M exp(A, order)) with respect to A. altexp adds terms until the result has converged and reports the number of terms, so that mult_exp with that number differentiates the very polynomial that was used for smearing.", "quantifier": "every real or complex square matrix of any size, every order, every rounding of the comparison that ends altexp, every curve of matrices", "why_tests_cant": "Convergence tests that are passed by accident and orders that are reported wrongly depend on the matrix; a force that is not the derivative of the smeared action shows up only as a slow loss of acceptance.", "anchors": ["libraries/datatypes/matrix.h: exp, altexp, mult_exp", "libraries/gauge/stout_smear_nch.h: nch_stout_smear1, nch_stout_smear_force", "libraries/gauge/stout_smear_nchm.h: nchm_stout_smear1, nchm_stout_smear_force"]}
{"id": "C107", "title": "The HMC programs use the given step size, test with the right action and can be restarted after a crash", "statement": "In the HMC programs every trajectory after the thermalisation uses the step size and number of steps of the parameter file, and during the thermalisation the length of a trajectory follows the documented ramp, however many trajectories were rejected. Each accept/reject test uses the action of the field the program has at that moment. The trajectory number counts the trajectories that were not rejected during thermalisation. If the process dies at any moment, a restart finds the field and number of the last checkpoint, at most one saving interval back. The last part fails while the status file is rewritten and when a thermalisation trajectory is rejected right after a checkpoint; the number of steps overflows after 32 rejections in a row.", "quantifier": "every parameter set, action, integrator, sequence of random numbers, number of turns, crash point and chain of restarts", "why_tests_cant": "The failures need a crash inside a window of a file write after a particular sequence of rejections, and the claims range over all histories of acceptances.", "anchors": ["applications/suN_hmc/src/suN_hmc.cpp: main, checkpoint, restore_checkpoint", "applications/suN_hmc_stout_comp/src/suN_hmc_stout_comp.cpp: main, checkpoint, restore_checkpoint"]}
{"id": "C108", "title": "Smeared gauge fields have the exact force and transform like gauge fields", "statement": "For stout-smeared and HEX-smeared gauge fields, the derivative of an action with respect to the smeared links is turned by add_momentum into the exact derivative with respect to the original links, for every number of smearing steps, coefficient and truncation of the exponential, and the momentum of the base field gets its projection to the algebra. Under a gauge transformation of the links the smeared links transform in the same way. The object can be made with any number of steps.", "quantifier": "all gauge fields, all curves through them, all derivatives, all numbers of steps, coefficients, truncations, lattice sizes, dimensions and sizes of the matrices; all gauge transformations", "why_tests_cant": "A test compares the force with a difference quotient for a few links of one configuration and a few digits; a wrong term in one staple direction, or a dependence on the gauge, is below the noise of a physical result.", "anchors": ["libraries/hmc/smearing.h: exp_and_derivative, staple_dir_derivative, stout_smeared_field::refresh, add_momentum, allocate, HEX_smeared_field::refresh, add_momentum", "libraries/hmc/gauge_field.h: calc_staples, gauge_field::add_momentum"]}
{"id": "C109", "title": "Random numbers on graphics processors are independent and in range", "statement": "After hila::seed_random every thread of every onsites loop that calls hila::random() draws from a generator of its own that has been seeded, no two generators of the program (on the same rank, on different ranks, in different partitions) are in the same state, every site of the loop is visited once, and hila::random() is uniformly distributed on the multiples of 2^-53 in [0,1).", "quantifier": "for all seeds, numbers of ranks and partitions, node sizes, loop ranges, values of GPU_RNG_THREAD_BLOCKS, GPU_VECTOR_REDUCTION_THREAD_BLOCKS and N_threads, sequences of seeding, freeing and changing the lattice, and all pairs of 32-bit numbers from the generator", "why_tests_cant": "Equal generators on two nodes give correct-looking results with wrong statistical errors, and whether they occur depends on how the lattice is divided; a uniform distribution on 2^53 values cannot be sampled; reading past the generator memory on a device is usually silent.", "anchors": ["libraries/plumbing/backend_gpu/hila_gpu.cpp: initialize_device_rng, seed_random_kernel, free_device_rng, hila::random", "libraries/plumbing/random.cpp: seed_random", "hilapp/src/codegen_gpu.cpp: generate_code_gpu (rng_thread_block_number, thread_block_number)"]}
{"id": "C110", "title": "Global variables have their last assigned value in site loops", "statement": "A variable of type hila::global<T> has, on the host and in every site loop and loop function on the device, the value last assigned to it with set() or =, also if there are several variables with the same name in different namespaces, however the variable is referred to.", "quantifier": "for all sets of declarations, names and namespaces, all sequences of assignments and all references in loops", "why_tests_cant": "The device variable is a different variable with a generated name: whether it is the right one depends on all names in the program, and a wrong one gives a value, not an error, when another variable of that name exists.", "anchors": ["libraries/plumbing/globals.h: global, set, get, operator()", "hilapp/src/toplevelvisitor.cpp: handle_global_var_decl", "hilapp/src/generalvisitor.cpp: handle_global_var_method_call, generate_constant_var_name"]}
{"id": "C111", "title": "The class U1 is the group U(1)", "statement": "Elements of type U1<T> behave as complex numbers of modulus 1: products, conjugation, sign, real and imaginary part, product with complex numbers, setting from a complex number, and zero; random() is distributed uniformly on the group.", "quantifier": "for all phases (of any size), all complex numbers, and all functions of a random element", "why_tests_cant": "Phases are not reduced to one period, so infinitely many representations of each element must agree; uniformity is a statement about the distribution; an operator that cannot be compiled is found only if it is used.", "anchors": ["libraries/datatypes/u1.h: U1, complex, set_phase, conj, operator*, operator*=, random"]}
{"id": "C112", "title": "Data passed between ranks arrives unchanged", "statement": "hila::broadcast gives every rank the value of the sending rank, for vectors, strings and lists of strings of any length and whatever the other ranks had before; vectors sent with send_to are received by receive_from complete and in order; reduce_node_sum and reduce_node_product give the sum or product of the values of all ranks.", "quantifier": "for all numbers of ranks, senders, lengths, element sizes, contents before and after, sequences of messages, and element types with any number of components", "why_tests_cant": "The failures need more than 2^31 bytes or several ranks with complex values; which ranks hold what before a broadcast is a product over all ranks.", "anchors": ["libraries/plumbing/com_mpi.h: broadcast, send_to, receive_from, reduce_node_sum, reduce_node_product", "libraries/plumbing/com_mpi.cpp: hila::broadcast(std::string), hila::broadcast(std::vector<std::string>)"]}
{"id": "C113", "title": "Operations on Array variables act on every element", "statement": "The operators +=, -=, *=, /=, =, +, -, *, / between arrays and with scalars on either side, and the functions like sqrt and pow, give for every row and column the operation on the elements in that place as they were before the statement, also when the same array or one of its elements stands on both sides, and change no other memory; sum, squarenorm and dot are sums over all elements; max and min are the largest and the smallest element with the first place where they are found; == compares sizes and all elements; size() and initializer lists fit the declared size.", "quantifier": "for all numbers of rows and columns, element types and operations, contents, aliasing between the operands, orders of elements", "why_tests_cant": "The operators are templates with a different loop for each; aliased operands, not-a-number in the first place and lists of the wrong length in release programs need special inputs.", "anchors": ["libraries/datatypes/array.h: Array::operator+=, operator-=, operator*=, operator/=, operator=, operator+, operator-, operator*, operator/, pow, sqrt, dot, sum, squarenorm, max, min, operator==, size, Array(std::initializer_list)", "libraries/plumbing/params.h: NDEBUG"]}
{"id": "C114", "title": "Site loops are vectorized only when everything in them can be", "statement": "For the AVX backend a site loop is turned into vector code exactly when it is not marked novector, has no site dependent condition, site selection, X.coordinates(), X.parity() or random number, its fields, site dependent variables and reductions have vectors of one common length and number type, and no function called with site dependent arguments is marked novector or calls, through any chain of functions, one that is; in all other cases it runs site by site. The decision is reached also for recursive functions.", "quantifier": "for all call graphs with cycles, numbers and types of fields, variables and reductions, and all loops", "why_tests_cant": "The call graphs are arbitrary, marks may sit behind any number of calls, and the number of combinations of types in a loop is unlimited.", "anchors": ["hilapp/src/codegen_avx_new.cpp: check_loop_vectorizable, are_vectors_compatible", "hilapp/src/contains_novector_visitor.cpp: contains_novector", "hilapp/src/loop_function.cpp: handle_function_call_in_loop, handle_constructor_in_loop", "hilapp/src/loop_function_visitor.cpp: handle_function_call"]}
{"id": "C115", "title": "Site loops cannot change shared data through pointers and references", "statement": "In a site loop the address of a variable declared outside, of a field element and of X is refused, a non-const reference to a variable declared outside or to a field element on another site is refused, a non-const reference to the field element of the site marks the field as changed (and as read unless out_only), static and extern variables are refused; everything else, in particular all uses of variables of the loop, is accepted.", "quantifier": "for all expressions built from variables, members, elements, parentheses and casts, all variables and declarations", "why_tests_cant": "The expressions can be nested without limit; a missed case shows only as a race between threads or a halo that is not updated.", "anchors": ["hilapp/src/addrof_and_ref_visitor.cpp: addrOfAndRefChecker::VisitExpr, addrOfAndRefChecker::VisitDecl", "hilapp/src/toplevelvisitor.cpp: check_addrofops_and_refs"]}
{"id": "C116", "title": "Arrays shared by all sites are changed in site loops by reductions only", "statement": "When hilapp accepts a site loop, an assignment to an element of an array, std::array or std::vector which is declared outside the loop is a sum (+=) into an element which is the same for all sites, and this sum is carried out over all sites and ranks. Elements which change from site to site can be assigned to only in a ReductionVector, with one kind of operation in the loop and no reading of the same vector; such loops are not vectorized. Reading is always possible.", "quantifier": "all site loops: every list of array references in every order, every operator, every kind of array and every dependence of the index on the site or on variables of the loop", "why_tests_cant": "The checks depend on which reference to an array hilapp sees first; tests show the error for one loop with one assignment, not for all orders of reads and assignments.", "anchors": ["hilapp/src/toplevelvisitor.cpp: handle_bracket_var_ref, handle_vector_reference, handle_array_var_ref, handle_loop_const_expr_ref", "hilapp/src/codegen.cpp: vector reductions", "libraries/plumbing/reductionvector.h: ReductionVector"]}
{"id": "C117", "title": "Variables shared by all sites are changed in site loops by reductions only", "statement": "When hilapp accepts a site loop, a variable which is declared outside the loop is either only read in it, or changed by += only and then summed over all sites, or changed by *= only and then multiplied; variables of type Reduction<T> are not read. A product is accepted for the number types which the error message names.", "quantifier": "all site loops: every list of references to variables in every order, every operator, and every kind and type of variable", "why_tests_cant": "The check is made once for each variable after the loop has been read and depends on the first reduction; tests show the error for one assignment, not for all combinations of reads, sums, products and assignments.", "anchors": ["hilapp/src/generalvisitor.cpp: handle_var_ref, new_var_info", "hilapp/src/toplevelvisitor.cpp: get_reduction_type, check_var_info_list", "hilapp/src/hilapp.h: legal_types"]}
