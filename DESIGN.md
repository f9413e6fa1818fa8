# Formal model of CFT-HY/HILA: design

The model is written in Lean 4 (core plus single Mathlib modules) under `lean/Verif/`.
It was made by reading `/repo` as text. The C++ was never built or run, so the tie
between model and code is the reading recorded in the comment above each definition
(file and lines).

## Organisation

| directory | content |
|---|---|
| `lean/Verif/Model/` | definitions that mirror the code, each with file:line and any simplification |
| `lean/Verif/Lemmas/` | helper lemmas; nothing here is a claim |
| `lean/Verif/Props/` | small specifications, the property theorems, and `example`s that show their hypotheses are met by a concrete case |

`MANIFEST.json` maps each property of `properties.jsonl` to theorem names.

## Conventions of the model

* `n` is NDIM and is always a variable. Coordinate vectors are functions `Fin n → ℕ`
  (sites) or `Fin n → ℤ` (displacements). Integers are unbounded unless the property is
  about wrap-around (random seeds use `BitVec 64`).
* Loops are folds or structural recursion. A `while` loop whose termination is part of a
  claim takes a fuel argument or is a relation, and termination is proved.
* Outcomes such as `hila::terminate`, `assert` failure, division by zero, out-of-bounds
  access and reads of uninitialised memory are explicit constructors (`Option`/`Except`
  or an `Outcome` type), never silently totalised. A theorem about a normal outcome
  states the guard.
* MPI is modelled at the message level: point to point messages are lists keyed by
  (sender, receiver, tag), delivered reliably and in order; collective sums are sums over
  ranks. This is an assumption of the trusted base.
* Floating point is replaced by exact arithmetic in an arbitrary (ordered) field or
  commutative ring unless the property is about rounding (C38 uses an abstract rounding).
* Where the code violates the English property, the negation is proved with a concrete
  witness, and the theorem that does hold is kept with its guard (suffix `_partial` when
  it does not give the full property). These are listed under "Disagreements".

## Trusted base

1. Lean 4.33.0 kernel; Mathlib as installed (only individual modules are imported).
2. Axioms: at most `propext`, `Classical.choice`, `Quot.sound` for each theorem. A table
   is kept at the end of this file. No `sorry`, no own axioms, no `native_decide`,
   no `bv_decide`.
3. The reading of the C++ source recorded in the comments.
4. Assumptions on the environment, stated where used: MPI delivers messages and computes
   collective sums, files return what was written, the C++ library functions (`sort`,
   streams) behave as specified.

Not modelled: the hilapp source-to-source compiler's AST traversal (loops are taken to
visit the sites of a parity in index order and to wait for the gathers of the fields they
read), GPU kernels, AVX code generation, timing, performance, output formatting.

## Plan per property

* **C01, C02** `Model/Layout`: `node_rank`, the divisor construction loop, `nodeinfo`
  (with remap), `get_logical_index`, `site_index` (EVEN_SITES_FIRST), the coordinates
  table filled through `advance_local_coordinate`. Proof: one-dimensional arithmetic of
  `i*nd/L` against the divisor table; mixed-radix induction on NDIM; the parity of
  logical indices 2k, 2k+1 differs (induction on NDIM) hence i/2 is a bijection per parity.
* **C03, C04** `Model/Gather`: both passes of `create_std_gathers` as folds over sites,
  `get_sitelist`, packing and unpacking of buffers. Proof: the face of the sender and the
  face of the receiver are listed in the same order because local indices are monotone in
  the same mixed-radix order.
* **C05** `Model/GatherState`: state machine of field status per (direction, parity) with
  operations write(par), start_gather(d, par), wait(d, par); refinement to "a read returns
  the current neighbour value"; invariants by induction on histories.
* **C06** `Model/Shift`: the loop of `Field::shift`; proof by induction on the length of
  the remaining displacement.
* **C41** `Model/Shift`: buffer of shifted copies as a list, references as indices, reallocation
  as a distinct outcome; induction on the length of the offset.
* **C07, C36** `Model/Elements`: `gather_elements`, `scatter_elements`, slice ranges,
  coordinate range macro; round-trip with per-rank regrouping.
* **C08, C09, C34** `Model/FieldIO`: chunked write/read through a byte stream, header.
  Round-trip for every chunk size. **C42**: the failure bit of the stream is part of the model.
* **C10, C11** `Model/Reduction`: per-rank state machines for `Reduction` and
  `ReductionVector`; invariants over histories; negations for reuse histories.
* **C12, C13** `Model/SiteSelect`: per-rank selection, join with limit; negation for
  repeated selection.
* **C14** `Model/Reduction`, `Props/MinMax`: search with type-dependent initial value; negation and guarded
  theorem.
* **C15** `Model/MemPool`: both pools as state machines; invariants over histories.
* **C16** `Model/Clusters`: relaxation with arbitrary order as a relation, tree merge of
  per-rank lists; proof: fixed point + invariant implies component minimum.
* **C44** `Model/FFTReal`: site classification, symmetrisation; on top of C17 and C18.
* **C17, C18** `Model/FFT`: pencil offsets, redistribution, per-direction transform as a
  parameter; `reflect` loop. Negation for odd extents if confirmed.
* **C19, C20** `Model/CmdLine`, `Props/CmdLine` (done), `Model/Input`, `Props/Input` (done): parsers over lists of strings/characters.
* **C21, C22, C23** `Model/Shuffle` (shuffle and Levi-Civita table), `Model/Seed`: counting and
  bit-vector arguments.
* **C24** `Model/Checkpoint`: file-system state machine with a crash after any prefix of
  primitive operations.
* **C25, C45** `Model/Muca`: bins, weight function, walls, files of rows; the direct, canonical
  and single-sample weight iterations.
* **C26, C39** `Model/HMC`: integrators as recursive terms over abstract position
  and momentum updates with group laws; HMC accept/reject.
* **C27** `Model/CG`: the iteration over an abstract inner-product module.
* **C46** `Model/MRE`: list of old solutions, Gram-Schmidt pass, elimination, combination.
* **C28, C47** `Model/SU2`: the four components over the reals; specification by Pauli matrices
  and Mathlib's matrix exponential (through the quaternions).
* **C29, C48, C49** `Model/LinkUpdate`: 2x2 hits embedded in N x N matrices, streams of random
  numbers, loops of trials; determinant by the Weinstein-Aronszajn identity.
* **C30** `Model/Blocking`: blocked layout on top of `Model/Layout`; registry of lattices.
* **C31** `Model/LayoutSearch`: prime slicing and the retry loop.
* **C32** `Model/Coord`: integer arithmetic with C truncation.
* **C33** `Model/Gauge`: links in an arbitrary group/matrix ring on a periodic lattice.
* **C35** `Model/KBinning`: bins and the cached information.
* **C37** `Model/Remap`: block enumeration of logical nodes.
* **C38** `Model/Extended`: exact-arithmetic algebra plus an abstract rounding with the
  error-free transformation property.
* **C40** `Model/Seed`: the cyclic counter.
* **C50** `Model/SUN`: coordinate arrays and sparse generators as arrays with bounds and unassigned
  elements; specification by the trace form.
* **C51, C52** `Model/LinAlg`: loops over rows and columns in `Option`, division by zero as `none`; loop invariants that
  relate the partly transformed matrix to the product of its factors; specification by Mathlib's `det`, product and inverse.
* **C53, C54** `Model/Jacobi`: the three Jacobi programs over `RCLike` with exact arithmetic, the limit of rotations and the
  stop test with 2.22e-16 as in the code, the selection of the pivot, the sorting by exchanges. `Bpp` of `svd`, which is
  declared anew in each iteration, is `none` or keeps its old value. Invariant: `M = V† H V`, `V` unitary; the sum of squares
  off the diagonal falls by the factor `1 - 2/(n(n-1))` with each rotation, which bounds what is left at the limit.
* **C55** `Model/Reunit`: row by row orthonormalisation, the phase from the modelled determinant (C51), random matrices from
  a universally quantified stream of vectors. Specification: `A = L U` with `L` lower triangular, positive diagonal (unique);
  range of `random` by elimination with one matrix per SU(2) subgroup.
- C56, C57 `Model/Force`: Wilson lines of arbitrary paths, the force of a loop, of the plaquette action and of the improved action, as the loops of the code over the torus of `Model/Gauge`. The specification is the path ordered product by recursion, and the derivative of the measured action along any curve of links with `dU/dt = a U` (derivatives of the matrix elements). The force of a loop is proved by induction over the path with the way back as a general factor; the plaquette and the rectangles by cyclic rotation of traces and shifts of the lattice sum.
- C58 `Model/Clover`: the clover leaves with their temporary fields, the clover action and force, energy and topological charge. The specification `fieldStrength` is the antihermitean traceless part of the mean of four path ordered products. The force follows from the loop force of C57 with the field strength as the way back; covariance and reflections from those of paths.
- C59 `Model/Degauss`: violation, correction step, the two steps and the loop of degauss.h. The correction is the adjoint of the divergence; the two steps are a polynomial in the covariant Laplace operator, whose bounds need no spectral theorem (`Between`). Convergence by a lower bound of the gradient on the range of the divergence (finite dimension); the limit is the orthogonal projection.
- C60 `Model/GradFlow`: flow forces and actions, energy derivatives, Runge-Kutta step, step size control and loop of gradient_flow.h. Forces are gradients by C57; covariance by uniqueness of the gradient; bound and continuity of the force on unitary fields give termination and the decrease of the action. The exponential is the exact one of `expand`. Total time by an inductive chain of accepted steps.
- C61 `Model/ChExp`: the Cayley-Hamilton exponential of matrix.h with its derivative, index by index over arrays of type `Fin n`. Newton's identities for traces give the characteristic polynomial (`Lemmas/NewtonTrace`); the coefficient arrays are vectors in the quotient by it, so a pass is multiplication by X. The derivative matrix is a tensor `Σ X^a ⊗ X^b`. Error of the Taylor sum by the Frobenius norm.
- C62 `Model/Stout` (stout_smear.h): staples, smearing with a number of steps and with lists, the three versions of the force.
  The functions of the exponential are a record; the theorems assume that it is exact, and an instance is constructed.
  Specification: `stoutSpec`, one smearing step on the torus, and curves of link fields as in C57. The pullback is proved for
  one step (derivative of the exponential, of the projection and of the staples, summation by parts over the torus), then
  for the list by induction. The two other versions are shown to equal the first because they have the same products
  with all velocities.
- C63 `Model/BulkPrev` (bulk_prevention_action.h): the inverse by Leverrier's recursion with division by zero as outcome, the action and its
  force. The recursion gives the adjugate coefficients (`adjCoeff`), so it is the inverse; the barrier follows by applying the matrix to an
  eigenvector; the force by the derivative of the inverse and summation by parts as in C57.
- C64 `Model/LogSU` (sun_matrix.h, log): the loop with its stopping rule; the exponential is a parameter. In the basis of eigenvectors of the
  exact logarithm all iterates are diagonal, so a pass acts on the vector of angles; the bound |x - sin x| <= |x|^3/6 gives cubic convergence.
  The negations follow the same angles: zero projection in the centre, and at most doubling of the distance to -1 per pass in SU(2).
- C65 `Model/LogAct`: the four headers on logarithms of plaquettes. The logarithm is a parameter `lg` with `IsLog θ lg` (inverse of the exponential of algebra elements of norm below θ ≤ π). `Lemmas/LogDeriv` proves that such a logarithm is differentiable (the exponential is strictly differentiable and its differential is injective there) and that tr(Y d log P) = tr(Y dP P†) for Y that commutes with log P. This gives the log-plaquette force; for the other two forces commutation is a hypothesis and `Props/LogActNeg` shows that it cannot be dropped.
- C66 `Model/Stagg`: the loops of the staggered operator on the torus of C33 with boundary signs, global temporary fields as arbitrary contents, aliased input and output in the even-odd operator. Proof: every loop reduces to one hopping sum (`hopAt`), antihermitean by a shift of the sum; the free square by pairing the directions; the force by differentiating the sum over links.
- C67 `Model/Fermion`: actions with an exact solver as parameter. Proof: the operator becomes a matrix over the components at its sites (from the adjoint property alone); the solution is differentiable by Cramer's rule; the derivative of `⟨b,(K†K)⁻¹b⟩`.
- C68 `Model/Antiper` on top of `Model/Gather` and `Model/Shift`: table of boundary conditions, edges of a node, the additional boundary elements and their neighbour arrays, the sign in messages and in the local copy. Proof: the message is that of a periodic field whose values on the sending edge are negated, so C03 applies; whether the sender has the edge is decided by the geometry of the boxes; the position of a boundary site among the additional elements is a count, even sites first. CPU back end only; the order of the local copy and the arrival of the message is fixed in the model, but they write disjoint elements.
- C69 `Model/VecLayout`: the site index of the subnode layout with merged subnodes, coordinate table, vector neighbour table with halo, lane permutation, halo index, receive list, the vectorised gather (local copy, message, placement), element storage. Proof: index = lane + V · (even-odd index in the subnode); a step keeps the lane inside a subnode and shifts the subnode number at its boundary; halo vectors are counted in storage order, half of them even; the list of sent sites is the image of the list of missing sites in the same order.
- C70 `Model/SrcBuf`, spec `Model/SourceDoc`: the buffer (characters, index table of extents, removed marks) and its operations, with `none` for the internal errors; the specification is a document with a keep flag and an inserted text per original position. Proof: a refinement relation `Repr` kept by every operation; reading the buffer = reading the document.
- C71 `Model/SrcBuf` (`replaceTokens`), spec `Model/SourceTokens`: a text is a sequence of lexical pieces, the specification replaces the word pieces. Proof: induction over the pieces with a scanner invariant.
- C72 `Model/StringOps`, spec `Model/StringSpec`: the string helpers with `std::string::find` as first occurrence and the unsigned wrap-around of the length test. Proof: first-occurrence lemmas, induction over the pieces between occurrences, loop invariants up to white space.
- C73 `Model/StringOps` (`cmdlineArgs`): the array of arguments with the position of `--`; the specification splits the list into kept and moved arguments. Proof: invariant `kept ++ rest ++ tail` of the loop.
- C74 `Model/GpuReduce` (threads as interleaved load/load/store steps, kernels with a bounds check, the tree inside a block, `gpu_reduce_sum/product`, reduction vectors with private copies, compare-and-swap): invariant over all schedules for race-free kernels (`runs_spec`), then sums over threads and blocks. Specification: `Model/GpuSpec` (`loopSum`, `binSum`, `RaceFree`).
- C75 `Model/OverlapLayout` (index map, coordinates, loop ranges and halo lists under GPU_OVERLAP_COMM): the slot of a site is the start of its group plus the number of earlier sites of that group in the box order; injectivity and surjectivity by counting. Sites of the first range are inner sites, and a step from an inner site stays in the box. Sender's and receiver's lists are both sorted by the slots of the sender, because shifting by one direction maps boundary sites of one box onto those of the other in order. Every direction is treated, with the list of gathered sites as a filter of the slots.
- C76 `Model/GpuSelect` (device mask, compaction, copy to the host): a run is any interleaving of the stores of the threads; the final cell of a slot depends only on the stores of its own thread (induction over the schedule). The compacted list is the selected sites in slot order, and the join of C12 is reused.
- C77 `Model/LoopBody` (traversal of loop bodies by hilapp, list of field references, generated code for one site): bodies are trees; the source and the generated code run with one interpreter over variables that may have no value. References found by the traversal cover reads and writes (induction over the tree). Flag case: everything mentioned is loaded, and runs depend only on what is mentioned. Straight-line case: all references of a statement have its number, so a read that is not counted has an assignment in an earlier statement. Words used in the statements are in `Model/LoopBodySpec`.
- C78 `Model/CpuLoop` (`codegen_cpu.cpp` 13-375 around the body: start of gathers, mask of directions, two passes with the
  wait bits of `lattice.cpp` 764-775, waits, `mark_changed`), on top of the gather machine of C05. Spec `Model/CpuLoopSpec`: a loop acts on all its
  sites at once. Proof: the invariant of C05 for every field; sites without the bit of a direction under way have local neighbours in it
  or the gather is complete; a pass over sites in any order equals the loop at once because it never reads a site it writes. Reads of slots
  with a message under way give arbitrary values.
- C79 `Model/OmpReduce` (`toplevelvisitor.cpp` 340-349, 1748-1815, `codegen.cpp` 526-535, `codegen_cpu.cpp` 117-160). Threads as lists of
  sites, their copies added in any order, as in the OpenMP specification. Proof: induction over passes, threads and statements, then C10 for
  the ranks and C01 for the sites. The meaning of `omp for reduction` is an assumption.
- C80 `Model/SiteDep` (`depends_on_site_visitor.cpp` 45-143, `toplevelvisitor.cpp` 480-505, 1366-1397, 1816-1834, `generalvisitor.cpp`
  505-660, `codegen_avx_new.cpp` 245-265, 559-669). The analysis as a traversal that collects marks and dependences, followed by sweeps; the
  vectorised body as a program on values that are ordinary or vectors. Sweeps reach a fixed point after as many turns as there are variables; a
  body that is accepted `Fits` the final marks; such a body on vectors simulates the body at each site.
- C81 `Model/RealTime` (`sun_realtime.cpp` 17-259). The updates as functions of the fields, with an exponential as parameter; the loops as
  recursion with fuel. The force has no divergence: each plaquette enters at its corner once in each of two directions with opposite sign. The
  update of the links leaves the rotated electric field as it is, because a matrix commutes with its exponential. Half steps join to whole
  steps, so turns with several steps are iterated leapfrog steps. The energy: derivative of a curve of fields through the start.
- C82 `Model/Cmplx` (`cmplx.h` 62-1380). The class over real numbers, with `none` for divisions by zero and logarithms of numbers that are not
  positive, and `atan2` by cases. Compared with the complex numbers of Mathlib operation by operation. The inverse functions are proved by
  `w * w' = 1` for the argument `w` of the logarithm: the sum of `w` and its inverse fixes the sign of the real part.
- C83 `Model/MatClass` (`matrix.h` 126-1720, 2071-3270), `Model/MatSpec`. The array of the class with `none` for elements never assigned or out of
  bounds, loops written as in the code. One lemma on loops that write each place once (`fillPos`) gives all of them; the result is compared with
  `Matrix` of Mathlib element by element.
- C84 `Model/DiagMat` (`diagonal_matrix.h`, `matrix.h` 463-1030), `Model/DiagSpec`. The array of the diagonal with the same loops; results are compared
  with `Matrix.diagonal`, the exponential with the exponential of matrices, functions by the equations that define them.
- C85 `Model/HmcSample` (`hmc.h`, `integrator.h`, `gauge_field.h`, `applications/suN_hmc`), `Model/SampleSpec`. The random numbers are made explicit;
  "keeps the distribution" is an equation between measures. Steps keep the product measure (`Lemmas/HmcChain`), the trajectory followed by the
  reversal of momenta is its own inverse (C26), and the accept step gives detailed balance (`Lemmas/Metropolis`). SU(N) with any
  measure invariant from the left (`Lemmas/SUMeasure`), gaussian momenta (`Lemmas/PiDensity`), pseudofermions by the change of variables.
  The exponential is exact and numbers are real. `gaussian_algebra` and `algebra_norm`, which `gauge_field.h` calls, do not exist in this
  version of the library: their distribution is a hypothesis.
- C86 `Model/GaussRand` (random.cpp:185-242, gaussian_random of numbers, complex numbers, matrices, SU2, algebras; the loop, the static variables and the memory of matrices are explicit; the generator is a stream). `Model/GaussSpec`: independent uniform stream, widths. `Lemmas/BoxMuller` proves the transform with polar coordinates, `Lemmas/NormalSeq` the sequence, `Lemmas/GaussRand` and `Lemmas/GaussFill` that every call reads numbers of this sequence that no other call reads. `Props/GaussHaar`: SU(2) elements are Haar distributed; the momenta of suN_hmc have the distribution used in C85.
- C87 `Model/LinkUpdate` (suN_heatbath, KennedyPendleton, see C48) with `Model/HeatSpec` (accepted trials, normalised weight). `Lemmas/StreamLaw`: programs that read a stream from its start and leave an independent rest. `Lemmas/HeatTrial`: density of a Kennedy-Pendleton and of a Creutz trial; `Lemmas/HeatLoop`: the loops of trials; `Lemmas/HaarCoords`, `Lemmas/HeatPoint`: Haar measure of SU(2) in terms of the trace and a direction; `Lemmas/HeatHit`: a hit keeps the weight along the orbit of its subgroup; `Lemmas/HeatFail`: bounds for rejected trials. Negation for the 100 trials of KennedyPendleton in `Props/Kennedy`.
- C88 `Model/SpinSim` (programs ising and xy: site step, loop, sequence of loops; a stream of numbers per rank, arbitrary ownership, order and halo reads), `Model/SpinSpec` (actions and reference measures). One site keeps the weight by the Metropolis identity and Fubini over the other sites (`Lemmas/SiteChain`); sites of one parity have no neighbours of the same parity, so halo reads agree with local reads; loops compose. The step of xy is a uniform angle modulo 2π. Negation for xy on two ranks.
- C89 `Model/GaugeUpdate` (suN_gauge: update of a link, of a direction and parity, sweep in shuffled order, trajectory with reunitarisation; a stream of numbers per rank), `Model/GaugeUpdSpec` (all hits accept). A program that can fail dominates: the integral over its results of any function is at most the integral over the start (`DomStep`, composes). One link: heat bath hits as in C87, an overrelaxation hit is a reflection on the orbit of SU(2) (`Lemmas/OverHit`); Fubini over the other links, whose weight splits off (`Lemmas/PlaqSplit`); on even lattices the staples do not change while links of one direction and parity are updated (`Lemmas/GaugeChain`).
- C90 `Model/Wilson` (wilson_vector.h, wilson.h): the spinors and the projections for the four dimensions as in the code, the hopping loops with the temporary fields as arbitrary old contents, the full and the even-odd operator and the force. Proof: each identity of the gamma matrices by cases on the dimension, direction and component for symbolic vectors; the loops as sums over directions; the specification `wilsonSpec` is the operator of the textbooks; point sources as witnesses for the negations. Not modelled: the gathers of the halo (C09 to C11), single precision, the CG inverter on top (C27).
- C91 `Model/Reps`, `Model/RepsSpec` (representations.h): the three representations, their tables of represented generators and the projections of forces, for a family of generators given as a parameter. `Lemmas/Reps` shows that N² - 1 normalised generators span the traceless antihermitean matrices, that the generators of the (anti)symmetric representation and their adjoints are dual bases of the (anti)symmetric matrices, and computes the derivatives along curves in SU(N). Not modelled: the static tables and their initialisation, the copies between precisions, `represented_gauge_field`.
- C92 `Model/Surface`, `Model/SurfaceSpec` (the program suN_gauge_surface: staples and action with two couplings, updates, the condition on the Polyakov loop, smearing, search of the surfaces). `Lemmas/SurfPlaq` splits the weighted action link by link; `Lemmas/SurfChain` repeats the chain of C89 for every action that is linear in each link (`LinearAction`). `Props/Surface` has staples, action, trajectories, bookkeeping of the Polyakov loop, range and detailed balance, `Props/SurfaceFind` smearing and the searches (loop invariants, around the end of the lattice). Not modelled: `spectraldensity_surface`, output, `measure_plaq_profile`.
- C93 `Model/GpuPool` (memory_pool2.cpp pointer by pointer: descriptors with next/prev/up/down, `none` for a null pointer that is followed or for a loop that does not end), `Model/GpuPoolSpec` (histories of calls, gaps, usable parts of slabs). `Lemmas/GpuList` refines the doubly linked lists to lists, `Lemmas/GpuRep`, `GpuInv`, `GpuFree` keep the invariant that the blocks tile the slabs, `Lemmas/GpuHist` that no two neighbours are free, `Lemmas/GpuCalls` puts the calls together; induction over the history in `Props/GpuPool`. Requests of zero bytes, alignment and the counter are in `Props/GpuPoolFind`.
- C94 `Model/ZLink` (z_link_model.cpp: staples with unassigned elements, the three updates with their draws, the move, the turns of `update`, measurements), `Model/ZLinkSpec` (action, configurations as integers on links and signs on plaquettes, counting weights). `Lemmas/ZLink`: one link in the action. `Lemmas/ZLinkStep`: the candidates of the overrelaxation form an involution because one of the two rounded roots is the link itself; Metropolis on integers. `Lemmas/ZLinkChain`: a loop with old staples is a loop with current staples. `Lemmas/ZLinkMove`, `ZLinkTurn`: the move permutes counting measures, choices by a broadcast number. `Props/ZLink` puts them together; numbers outside [0,1) have weight 0.
- C95 `Model/MucaExample` (multicanonical_example.cpp: local action, order parameter, proposal, update with the weight tables of `Model/Muca`), `Model/MucaExSpec` (action, weight factor, distribution, noise). Proof: at one site the pair of old and new value is exchangeable (`mcMove_reversible`: the flip `(phi, delta) -> (phi + delta/2, -delta)` keeps volume times normal law); sites of one parity are exchanged one after the other (`mc_reversible`), because the local action of a site reads only sites of the other parity; a decision with the ratio of weights after an exchangeable proposal keeps the weighted distribution (`decide_keeps`).
- C96 `Model/Timing` (timing.cpp: `sscanf` with `%u`, the chain of scans with the leftovers of failed ones, `time_to_finish` with its static variables, timers by address and `timer_list`), `Model/TimingSpec` (numbers as strings, longest gap, phases of a timer). Proof: scans of strings of digits; the last answer of a sequence of checks in closed form by induction; an invariant that ties phase, list and count for every timer; operations on other timers do not touch a timer (`run_local`).
- C97 `Model/FFTGpu` (fft_gpu_transform.h): the kernels thread by thread with checked accesses and checked `int` positions, in any order of threads; batches, plans and their common work area. Each thread is related to its line (`Lemmas/FFTGpu`), the data path of C17 is reused; a run that ends well implies the size conditions (`Lemmas/FFTGpuFail`), which gives the exact condition for success. Streams, the copies to the host and the FFT library itself are not modelled (the transform of one line is a parameter).
- C98 `Model/MaxStaple` (sun_max_staple_sum_rot.h): the turns of the SU(2) subgroups, the test for the end and the update; the order comes from the model of `shuffle` (C21). A turn is the hit of the overrelaxation (C48) seen from the staple; invariants give the group, the trace and the last subgroup. The update is a reflection that keeps the Haar measure, so the Metropolis lemma of C88 applies for each order, and the numbers of the shuffle are split from the others (`stream_after`). The same lemma completes C29 for the variant with singular values. Rounding is not modelled: the tolerance is an arbitrary number.
- C99 `Model/GatherTest` (test_gathers.cpp): the test with its integer arithmetic, over an arbitrary behaviour of the reads; what an operation out of range gives is a parameter (undefined or modulo 2^32). Sums of absolute values that are zero have zero terms; the sum for gathers that do not shift is computed in closed form, that over even sites by a bijection with the odd ones. Reductions are in a fixed order of the ranks, the distribution of sites is arbitrary.
- C100 `Model/Partitions` (initialize.cpp:417-461, com_mpi.cpp:330-345, with `Model/Seed`): the number of partitions, the color of a rank, the result of `MPI_Comm_split` as the position in the list of ranks of the same color, directory and seed. The ranks of a color are an interval, so that position and length follow; seeds from C22. Output files and the broadcast of their errors are not modelled.
- C101 `Model/GpuStore` (the field storage on graphics processors: `get`, `set`, `gather_elements`, `gather_comm_elements`, `place_elements`, `place_comm_elements`, `set_local_boundary_elements`): memory is a buffer with bounds, the index is computed in 32 bits, kernels run their threads in any order. A general lemma (threads that each fill one slot) gives the result for all orders; then the round trip, the message between two ranks, and the boundaries inside a rank. Negation: more than 2^32 numbers in a field. Not modelled: streams and asynchronous copies, the memory manager, MPI itself (C11), races inside one thread block that the order of whole threads does not show (the threads of these kernels write disjoint places, which is what is proved).
- C102 `Model/CsFlow` (`gauge/cs_flow.h`: `get_cs_force`, `measure_cs_s`, `measure_dE_wplaq_dt`, `do_cs_flow_adapt`): a division by zero is undefined. The direction is the normalised part orthogonal to the force; with C57 the derivative of the action along it is zero. Gauge covariance from C50 and C60; the loop as a chain of accepted and rejected steps. Negations: unit links (forces vanish because they commute with all gauge rotations), rejected steps that leave a trace in the direction. Not modelled: the actions BP and LOG-PLAQUETTE, clover and log energies (C58 covers the force), rounding. Not proved: that the loop ends, and the change of the action in a step of finite length.
- C103 `Model/GpuMinmax` (gpu_minmax.h, reduction.h 321-394): the library reduction over one range (empty range as documented), the choice between two ranges, the coordinates table with its bound and the reduction over ranks. Proved from C01/C75 (slots and ranges) and the fold lemmas of C14; negations with a rank without sites of a parity and with a 2 × 2 rank.
- C104 `Model/SrcScan` (sourceloc_utils.cpp, forwards; loop_function.cpp 345-354): locations as the rest of the text, `none` beyond the end of the buffer. The texts between parentheses are an inductive predicate `ParText`; induction over it for all nestings. Negations by evaluating short source texts. The backward direction of `getNextLoc` and `getRangeText` are not modelled.
- C105 `Model/RngSearch` (recognition of loops that draw random numbers in hilapp: the search through the call graph, the marking of calls, the visit of functions and the choice of the OpenMP directive). A program is a graph of functions; `Draws` says when executing a loop may reach a generator. Proof: the visited sets are closed under calls when nothing is found, and the number of functions not yet visited falls, which gives the end. The parsing by clang, templates and the hardware generators of the GPU are not modelled.
- C106 `Model/TaylorExp` (the exponentials of matrices by Taylor sums: `exp`, `altexp`, `mult_exp`). Proof: closed forms of the backward loops by induction; the derivative is the sum of `A^a M A^b` by the recursion of the code, and cyclicity of the trace turns it into the directional derivative; the error bound of the Taylor sum is that of C61. Only the comparison of norms is rounded, by an arbitrary function; the other operations are exact. The fields and the force of the smearing around these functions are those of C62.
- C107 `Model/HmcDriver` (main loop of the HMC programs: thermalisation schedule, Metropolis test with the remembered action, alternating checkpoint files). Proof: induction over the turns with an invariant for each claim; the invariant of the files says that the last multiple of the saving interval is stored in the file of its parity, and a crash is a prefix of the file operations of one more turn. Integrator and action are arbitrary functions (C85 treats the real ones). Not modelled: measurements, gradient flow, the plain configuration file of a first start.
- C108 `Model/HmcSmear` (`hmc/smearing.h`, parts of `hmc/gauge_field.h`): stout and HEX smearing and their forces. The force is the adjoint of the derivative of the smeared links; proved link by link (`smearLink_pull`, through the derivative of the Taylor polynomial of C106), for the staples by shifting the sums over the lattice (`staple2_pull`), then by induction over the steps (stout) and through the three levels (HEX). Gauge transformations: general law, global rotations; negation by a 2 x 1 lattice with SU(2) links.
- C109 `Model/GpuRng` (generators of `hila_gpu.cpp`, seeds of `random.cpp`, blocks and threads of loops of `codegen_gpu.cpp`). A generator is the pair of numbers given to `gpurand_init`; memory is a list, access outside of it is `none`. Different seeds by division with remainder, partitions and the uniform distribution by bits, memory by comparing the numbers of blocks.
- C110 `Model/GlobalVar` (`globals.h`, device variables made by hilapp for declarations and references). Names are lists of characters, the constant memory is a map from names to values; the values by induction over the assignments, different names by the first separator `__`.
- C111 `Model/U1` (`u1.h`). Phases are real numbers; `complex()` is the exponential, from which the group laws follow; the distribution of `random()` by periodicity of the integrand.
- C112 `Model/Broadcast` (`com_mpi.h`, `com_mpi.cpp`). Memory is a list of bytes for every rank, the number of bytes given to MPI goes through the conversion to `int`; messages between two ranks are a list. Lists of strings by induction over the strings, messages by induction over the vectors.
- C113 `Model/ArrayCls` (`array.h`). Memory maps object and index to elements, so that operands can be the same object; loops are folds of stores. One loop over the C array by induction over its length, two loops over rows and columns are shown equal to one; reductions by induction, maximum by a loop invariant with the first place.
- C114 `Model/VecDecide` (`codegen_avx_new.cpp`, `contains_novector_visitor.cpp`, `loop_function.cpp`, `loop_function_visitor.cpp`). The search for the mark is the search of C105 in a program with other marks; calls by induction over the list, types by an invariant of the loop over fields, variables and reductions; the decision is stated as an equivalence.
- C115 `Model/AddrRef` (`addrof_and_ref_visitor.cpp`). Expressions are an inductive type with members, elements, parentheses and casts; the functions of clang which remove parentheses and casts are modelled one by one. The variable to which an expression belongs is the specification; wrappers by induction.
- C116 `Model/BracketRef` (`toplevelvisitor.cpp:417-790, 942-993`). A loop is the list of its references `a[i]`; the two lists of hilapp are the state and a reported error is `none`. One lemma says what an accepted reference does; entries and loop constants stay, so what one reference puts into the lists is there at the end. The theorems speak of all lists and orders.
- C117 `Model/VarRule` (`generalvisitor.cpp:480-580`, `toplevelvisitor.cpp:340-349, 1748-1812`, `hilapp.h:201-228`). A loop is the list of its references to variables. The entry of a variable at the end is computed from the operators of its own references by induction on the loop from the end; the condition for acceptance follows.

No property of the list is excluded as inexpressible. Runtime aspects that the model
cannot exhibit are named in the note of the claim.

## How to read seeded/LOG.jsonl

Each line is one edit of a definition of the model and the result of `lake build`. "failed as expected" means only that the build stopped in a theorem,
a helper lemma or an example. `theorems_failed` lists where. When it lists helper lemmas only, the proof no longer goes through;
this alone does not show that the statement of the property theorem has become false.
"survived" means that everything still built. "invalid" means that the edited definition itself did not compile, so that nothing was tested.
Eight such lines were first logged as failures and were corrected later; these edits are repeated, in a form which compiles, at the end of the log.

## Disagreements between the code and the properties

Each entry: what the property says, what the code does, the theorem with the witness, and the
positive theorem that holds.

* **C05, odd extents.** `mark_changed(EVEN)` invalidates the ODD and ALL gathers only
  (`field.h` 583-602), assuming that an even site has odd neighbours. With an odd extent
  divided between ranks an even site on the boundary has an even neighbour, and
  `is_this_odd_boundary` (`lattice.cpp` 605), written for this case, is never called.
  `C05_stale_halo`: on a ring of three sites a loop over EVEN reads an old value.
  Positive: `C05_reads_latest_partial` (divided extents even),
  `C05_all_gathers_any_extent` (any extents, reads over ALL).
* **C06, C41, odd extents.** A shift or offset read restricted to EVEN or ODD builds its
  intermediate copies on alternating parities. Across an odd extent the neighbour has the same
  parity, so an element of a temporary that was never assigned is copied
  (`C06_shift_parity_odd`, `C41_offset_odd_extent`). Positive: `C06_shift` (ALL, any extents),
  `C06_shift_parity_partial`, `C41_offset_reads_partial`.
* **C41, buffer capacity.** `do_buffered_shift` appends to `shift_buffer` (capacity 100) while the
  callers hold references into it. An offset longer than the capacity makes them dangle:
  `C41_dangling_reference` (for every capacity), e.g. `f[X + 101 e_x]`.
* **C34, extents in the header.** `config_read` tests `lattice.size(d) % insize[d] == 0` only, after
  truncating the 64-bit word to `int`. Zero divides by zero (`C34_zero_extent`), negative extents pass
  (`C34_negative_extent`), `2^32 + L` is taken for `L` (`C34_truncated_extent`). Positive:
  `C34_roundtrip`, `C34_rejects_partial`.
* **C08, element larger than the buffer.** `sites_per_write` is 0 and the loop never ends
  (`C08_zero_buffer_never_ends`). The property is stated for buffers of at least one element.
* **C10, delayed mode and reading.** A delayed `Reduction` that is reduced and then used in another
  delayed loop without a new assignment counts the old total once per rank
  (`C10_not_delayed_reuse`); `value()` right after an assignment is 0 on ranks other than 0
  (`C10_not_assigned_value`); `+=` outside a loop in delayed mode adds on every rank
  (`C10_not_delayed_plus`). Positive: `C10_immediate_partial`, `C10_delayed_partial`,
  `C10_field_sum`, `C10_plain_variables`.
* **C11, delayed products and assignments.** `is_delayed_sum` is never set, so a delayed product is
  combined by the sum (`C11_not_delayed_product`), and a second delayed product fails an assertion
  (`C11_not_two_delayed_products`). An assignment between a delayed loop and `reduce()` is
  multiplied by the number of ranks (`C11_not_delayed_assign`), and an assignment during a
  non-blocking reduction writes a buffer that MPI owns (`C11_not_nonblocking_assign`).
  Positive: `C11_immediate_partial`, `C11_delayed_sums_partial`.
* **C14, initial values.** `max` starts from `numeric_limits<T>::min()`, which is positive for
  floating-point types: a field without larger values gives that number and no location
  (`C14_not_max_nonpositive`). `min` of a field with no value below the largest finite value gives
  that value and no location (`C14_min_not_located`). Positive: `C14_min_partial`,
  `C14_max_partial`, `C14_integer_values`.
* **C13, repeated selection.** `select_site_value` writes the new value to the next slot before it
  recognises that the site is the same (`site_select.h` 281-284), so the first value stays
  (`C13_not_updated`), and the write is out of bounds if all sites of the rank are selected
  (`C13_not_in_bounds`). Positive: `C13_values_partial`.
* **C15, purge on CPU builds.** `free(it->ptr)` in `memory_pool::purge` calls the member function,
  which finds the block already free and terminates (`C15_not_purge_cpu`). Positive: `C15_alloc`,
  `C15_held_blocks`, `C15_free`, `C15_purge_gpu`.
* **C43, clusters from links.** `find(link)` marks every site that touches a link and then joins all
  adjacent marked sites, also those with no link between them (`C43_unlinked_sites_merged`). Positive:
  `C43_linked_sites_same_label_partial`.
* **C18, odd extents.** `hila_fft::reflect` swaps `buf[j]` and `buf[length-j]` for
  `1 <= j < length/2`. With `length = 2m+1` the pair `m`, `m+1` is not swapped
  (`C18_odd_extent_wrong`, for every lattice and division). Positive: `C18_reflect_partial`.
* **C17, C18, no direction.** `full_transform` with no direction set copies the result from
  uninitialised buffers with an uninitialised `dir` (`C17_no_direction_undefined`,
  `C18_no_direction_undefined`). Positive: `C17_fft_partial`, `C17_fft_back_partial`.
* **C19, missing values.** The number of values of a flag is checked only if something follows the
  flag (the `break` in `cmdline.cpp` 151-153 skips the test in 178-186); flags processed earlier have
  been removed from the array. `C19_missing_value_accepted`: a flag that needs values is accepted as last argument.
  `C19_order_dependent`: whether `-b -a 1` is accepted depends on which flag is processed first.
  `values()` accesses `argmap[flag]` before it tests whether the flag exists, so an unknown flag
  gives an empty list: `C19_unknown_query_accepted`. Positive: `C19_accepted_partial`,
  `C19_accepts`, `C19_order_independent_partial`, `C19_always_defined`.
* **C20, malformed numbers.** `is_value` (`input.h` 496-504) converts with `istringstream >>` and does
  not look at what is left. `C20_trailing_characters_accepted`: `3.5` and `3abc` are accepted as
  the integer 3. Positive: `C20_integer_partial`.
* **C20, complex numbers.** The documentation (`input.h` 226-232) gives `(0.4, 0.5)`. `get_value`
  (339-364) looks for the token `(`, but tokens end at white space or commas only, so the token is
  `(0.4`. `C20_documented_complex_rejected`: every value written this way is rejected.
  `C20_get_complex_partial`: it is accepted with spaces inside the parentheses.
* **C20, overrides.** `-p key` without a value ends by an exception of `at`
  (`C20_override_without_value`).
* **C24** `checkpoint` replaces the configuration before the status file. A crash between the two restores
  the new configuration with the old trajectory number and seed (`C24_mixed_state`). After a crash between
  the renaming and the end of the writing, `restore_checkpoint` terminates although the previous state is
  complete in the `.prev` file and in `run_status`: the `.prev` file is never read (`C24_prev_not_used`);
  if there was no status file yet, the run silently starts from scratch
  (`C24_initial_configuration_ignored`). With `save_old = false` a crash while writing loses the only
  configuration (`C24_lost_without_save_old`).
- **C25 weight files** (`C25_file_loses_digits`, `C25_file_merges_bins`). `write_weight_function` prints with the default six decimals and the reader converts through `float`, so weights and limits with more digits are changed; close limits can become equal.
- **C25 one bin** (`C25_one_bin`). See the theorem for what a table with a single bin does.
- **C45 single-sample flag** (`C45_single_result_undefined`). `continue_iteration` is only set when the count is a multiple of the check interval; all other calls return (and broadcast) an uninitialised variable.
- **C45 canonical iteration** (`C45_canonical_last_bin_wrong`, `C45_canonical_division_by_zero`). The normalisation loop divides entries 0..N-2 by the bin width but not entry N-1, so the last weight is off by log(width). `max_iters / 100` is zero for fewer than 100 iterations and is used as a modulus.
- **C27 exact initial guess** (`C27_exact_guess_undefined`). `CG::apply` computes alpha = rr / |M p|² before any test of the residual, so an initial guess that already solves the equation gives 0/0.
- **C27 zero right-hand side** (`C27_zero_source`). The criterion is `rr < accuracy² |b|²`, strict, so with b = 0 it is never met: the solver divides by zero or runs to its limit.
- **C26 number of steps** (`C26_no_substeps`). The constructors accept n ≤ 0; then the lower levels are skipped and the fields never move.
- **C26 sum of actions** (not a theorem). `operator+(action_base a1, action_base a2)` in integrator.h takes its arguments by value and keeps references to them, so the sum refers to sliced objects that no longer exist. `ActionTerm.sum` models the class used directly.
- **C46 list of solutions** (`C46_history_lost`, `C46_save_overwrites`). `save_new_solution` shifts in increasing order of the index, so all entries but the first become copies of the previously newest solution.
- **C46 guess** (`C46_guess_last_vector`, `C46_guess_not_combination`). The last loop assigns `psi = basis[i] + v[i]*basis[i]` instead of adding to psi: the guess is (1 + v) times the last basis vector, twice the solution when the only saved vector is the solution.
- **C46 basis** (`C46_basis_not_orthogonal`). The projection is divided by the norm of the vector that is being reduced instead of that of the basis vector.
- **C28 square norm** (`C28_squarenorm_half`). `SU2::squarenorm` returns the determinant, which is half of the square norm of the matrix; the general matrix class returns the full one.
- **C29 vanishing projections** (`C29_zero_staple_undefined`). `suN_overrelax` normalises the SU(2) projection without a test, so a vanishing projection (e.g. a zero staple) turns the link into NaN.
- **C47 logarithm of -1** (`C47_log_minus_one`). `SU2::log` returns zero for -1 (length of the vector part is zero), whose exponential is +1.
- **C47 `SU2::exp`** (`C47_su2_exp_uninitialised`). `ret` is default constructed without values and its components a, b, c are multiplied (`*=`) by sin(r)/r instead of being set from the argument.
- **C48 heat bath** (`C48_heatbath_leaves_group`). After 40 repeated rejections the last rejected value is used; if it is outside [-1, 1] the vector part is built from |1 - a0²| and the link is no longer in SU(N).
- **C30, `block_by_factor` (lattice.cpp:1076-1081).** A lattice of the wanted size is used again whatever its parent. After `block({4,4}); unblock(); block({2,2}); block({2,2});` on 8 x 8 sites the parent of the 2 x 2 lattice is the base lattice, so `unblock()` skips the 4 x 4 lattice and `block_from` a field of the 4 x 4 lattice fails its assertion. `C30_unblock_elsewhere`, positive part `C30_unblock_partial`.
- **C30, blocking by one.** `lattice.block({1,1})` stays on the active lattice, so a following `unblock()` leaves it (or stops the program on the base lattice). `C30_block_by_one`.
- **C30, `unblock_to` (field_comm.h:1367-1369).** A rank without sites of the blocked lattice returns before the loop that assigns the target, so it does not call `mark_changed` and keeps its halo of the target as gathered: stale values are read, and the neighbour waits for a message that is not sent. `C30_unblock_stale`, positive part `C30_unblock_halo_partial`.
- **C30, `block_to_current_lattice` (field_comm.h:1421-1423).** The same early return leaves the field on the parent lattice on those ranks only. `C30_block_to_current_stays`.
* **C31, layout search never ends** (`C31_never_ends`). In `setup_layout_generic.cpp` the loop is
  `do { ... } while (secondtime)`, and `secondtime` is set after a failed first attempt and never cleared. If the first
  attempt fails and the second one succeeds, the loop repeats the same successful attempt for ever, with no output.
  Witness: 2 x 4 sites on 3 ranks. `C31_ends_iff` gives all such inputs; `C31_ends_partial` shows that there are none
  when the number of ranks divides the number of sites.
* **C33, Polyakov loop of the HMC library** (`C33_hmc_polyakov_not_invariant`, `hmcPolyakovLoop_eq`).
  `polyakov_loop` in `hmc/gauge_field.h` multiplies `polyakov[X]` by one link and never by the product of the plane
  before (`polyakov[X - dir]`). It returns the average trace of single links, which is not gauge invariant.
  `measure_polyakov` in `gauge/polyakov.h` is right (`C33_polyakov`).
* **C33, staples of one parity on a lattice of odd size** (`C33_staplesum_odd_size`). `staplesum(..., EVEN)` computes the
  lower staples on odd sites only and reads them at `X - d2`; with an odd size this can be an even site, which was never
  assigned. The layout code allows odd sizes.
* **C35, cached bin information.** `k_binning::k` and `k_binning::count` fill their arrays only when they are empty. After
  a query, `k_max`, `power` or `binwidth` change the bins but not the answers (`C35_stale`), and after `bins` with a larger
  number the next query of a new bin reads outside the array (`C35_out_of_bounds`). The positive part is
  `C35_queries_partial`.
* **C35, width of bins.** `k_binning(b).k_max(m)` leaves `binwidth()` at the old value (`C35_binwidth_stale`).
* **C35, conversion to int.** `sd_get_k_bin` converts `(k/k_max)^p * bins` to `int` before the range test. Modes far above
  `k_max` make this conversion undefined (`C35_overflow`).
* **C38, comparison.** `ExtendedPrecision::to_double` adds the parts with rounding, so that the rounded first sum can cancel
  against the second correction. The sum of `2^180, 2^120, -2^60, -2^120, -2^180, 2^60, 1` is held exactly as 1, is
  converted to 0 and compares equal to 0 (`C38_compare_wrong`).
* **C38, unsigned operands.** `s - n`, `s -= n` and all comparisons negate `n` in its own type. For unsigned `n` this adds
  `2^w - n` (`C38_unsigned_minus`); `ExtendedPrecision(n) == n` is false for every unsigned `n > 0` (`C38_unsigned_equal`).
* **C38, large factors.** The search `while (2 * mult < rhs)` in `operator*=` overflows: for odd unsigned factors above half
  of the range it never ends (`C38_mul_forever`), for odd signed factors above `2^(w-2)` it is undefined
  (`C38_mul_undefined`).
* **C50, table of products.** `generator_product_list` (`sun_matrix.h` 433-459) pushes to `gen_prod_list[i][j]` without
  `empty()`, although the argument is `out_only` and `generator_list` does empty its lists. A second call on the same
  array writes outside a list of capacity `N`, for every `N >= 2` (`C50_products_again`). Positive:
  `C50_products_partial` (empty lists before).
* **C50, bilinear projection of an array.** The comment has `w[k][l]` with `lambda_j[l][k]`, the code uses
  `lambda_j[k][l]` (`sun_matrix.h` 703-725): `C50_bilinear_array_transposed`. Positive: `C50_bilinear_array_partial`.
* **C52, singular matrices.** The pivot search of `LU_decompose` (`matrix_linalg.h` 610-620) starts from row 0, not from row
  `i`. If no element on or below the diagonal of column `i` is larger than zero, row `i` is exchanged with the finished
  row 0. For `(1 2; 2 4)` the result is finite, with order (0, 1) and factors of `(1/2 0; 1 4)`:
  `C52_decompose_singular`. `solve` then returns a finite vector that does not solve a consistent equation:
  `C52_solve_singular`. Positive: `C52_decompose_partial`, `C52_solve_partial`, `C52_invert_partial` (regular matrices).
* **C53, C54, size 1**: `eigen_hermitean` and `svd_pivot` of a 1×1 matrix call `find_largest_offdiag`, which finds no pair and leaves `p`, `q` without values; they are then used as indices. `C53_size_one`, `C54_pivot_size_one`.
* **C54, `Bpp` without a value**: in `svd` the line `double Bpp;` inside the loop over `q` declares a new variable in each iteration, but it is computed only if `need_pp`. After a pair that needed no rotation the next pair uses a variable that has no value. From size 3 on no run can converge without this: `C54_svd_never_converges`; and it happens at once for every matrix with orthogonal first columns, as the unit matrix: `C54_svd_undefined`. `C54_svd_partial` is the statement for size ≤ 2 or if the variable keeps its old content.
* **C54, `svd_pivot` returns a `U` that is not unitary**: the loop stops when the largest element of the Gram matrix is small compared with the norms of *its own* two columns. Elements between shorter columns are not looked at. For a regular 3×3 matrix with singular values near 1, 1, 1e-16 two columns of `U` have a product above 1/2: `C54_pivot_not_unitary`. `svd` tests each pair, `C54_svd_partial` gives 2.22e-16 there.
* **C54, singular matrices**: both programs divide a column by its norm, also if this is 0: `C54_singular` (diag(1, 0)). `U` then has a column of NaN.
* **C53, C54, sorting**: the comment at `svd` says eigenvalues are sorted to decreasing order; the order is the one that was asked for (`C53_eigen_partial`, `C54_svd_partial`).
* **C55, rows that are linearly dependent**: `make_unitary` and `reunitarize` divide by the norm of a row without a test: `C55_make_unitary_singular`, `C55_reunitarize_singular`; `random` of SU(2) does the same with the random vector: `C55_random_su2_zero`.
* **C55, not gauge covariant**: orthonormalising rows commutes with group elements on the right only. For matrices outside the group (sums of links, as in smearing) `reunitarize` does not commute with gauge transformations: `C55_not_left_covariant`.
- **C56 short paths** (libraries/gauge/wilson_line_and_force.h:11-68). `get_wilson_line` reads `path[0]` and then `path[i]` with `i = 1` after its loop, whatever the length of the path is. With an empty path or with a single step an element outside of the vector is read. Shown: `C56_short`. The theorems need two steps or more.
- **C57 misspelt calls** (libraries/gauge/wilson_line_and_force.h:107-118, 158-167). `get_wloop_force_from_wl` and `get_wloop_force` call `get_wloop_froce_add`, which does not exist; the two functions do not compile when they are used. Only the adding versions are modelled.
- **degauss returns a number that does not bound the violation** (degauss.h:75-78): the comment says the real violation should be smaller than the returned one. `C59_returned_not_bound`: for the alternating mode in three dimensions the second, larger step multiplies the violation by -3/2, so what is left is 9/4 of the returned (squared) number. `C59_degauss` proves that 9/4 is the bound.
- **degauss diverges in four dimensions** (degauss.h:58-60): the step sizes are fixed for at most three dimensions and nothing checks `NDIM`. `C59_diverges_four`: with unit links the alternating mode is multiplied by 14/9 in every step, and `degauss` ends at the loop limit with a violation `(14/9)^20002` times the first.
- **The Zeuthen flow is not gauge covariant** (gradient_flow.h:85-95): the covariant second derivative uses `left_conjugation(U[d][X], F_LW[d][X])` where the force at the forward neighbour `X + d` is meant. `C60_zeuthen_not_covariant`: on the lattice of size 2^4 there are an SU(2) field and a gauge transformation for which the force of the transformed field is not the transformed force.
- **`GFLOWACTION=0` (Wilson) cannot be selected at compile time** (gradient_flow.h:38): the static assertion asks for `0 < GFLOWACTION` although `Wilson = 0`. A compile-time matter; not modelled.
- **C61, `chsexp` computes a different function.** The Faddeev-LeVerrier loop (matrix.h:4346-4362) stores the negatives of the coefficients of the characteristic polynomial in `crpl`, but the iteration (4384-4397) uses them with the sign of `chexp`. For `diag(1, 0)` the first element of the result is at most `e - 1` instead of `e` (`C61_chsexp_wrong`); only nilpotent matrices are right (`C61_chsexp_partial`).
- **C61, returned number of iterations.** `chexp` returns the variable `j`, which is also the counter of the squaring loop; as soon as the norm of the matrix reaches `sqrt(2)` it returns the size of the matrix (`C61_count_lost`).
- **C61, size 1.** `chexp`, its variants and `chsexp` write `pl[1]` or read `al[-1]` for matrices of size 1 (`C61_size_one`).
- `log` of an SU(N) matrix (sun_matrix.h:612-639): for every element of the centre other than 1 (for example -1 in SU(2)) the first projection
  is zero, so the loop ends at once and the result is 0, although exp 0 = 1 (`C64_centre`). For SU(2) matrices close to -1 the 5N passes are
  not enough and the last iterate is returned without notice; its exponential misses the matrix by at least the square root of 2
  (`C64_near_minus_one`). Below the angle sqrt 3 the iteration converges cubically (`C64_log_exp_partial`).
- C65 `get_force_log_add` (log_clover_action.h:64-101) is not the gradient of `measure_s_log`. The comment uses d log(C) = (dC) C† inside the trace with Csum, which holds only if Csum commutes with log C. `C65_clover_force_wrong` gives a constant SU(2) field in two dimensions, on every lattice, where the derivative of the action along a direction is 0 and the component of the force along it is not.
- C65 `get_force_topo_supp_add` (log_topo_supp_action.h:102-164) has the same defect with the dual plane in place of Csum: `C65_topo_force_wrong` gives a constant SU(2) field in four dimensions where the action is constant along a curve of gauge transformations and the force along it is not 0. (The force is therefore also not orthogonal to gauge directions, so the Gauss law is not kept.)
- C65 `measure_s_topo_supp` and `get_force_topo_supp_add` use six planes in an array of fixed size: outside four dimensions they read fields that were never set (or write past the array). `C65_topo_dim`.
- C65 log_topo_supp_action.h:52-65 defines the function template `get_log_plaq_mat` that log_plaquette_action.h also defines, so both headers cannot be included in one program. (Remark; not modelled.)
- C66: `dirac_staggered_evenodd` (dirac/staggered.h:239-256) computes `m + D_eo D_oe / m`; the reduction of the staggered operator to the even sites is `m - D_eo D_oe / m`. With mass 1, unit links and a lattice size divisible by 4 the preconditioned operator is singular although the full operator is invertible (`C66_evenodd_wrong`).
- C66: the comment at staggered.h:22-25 gives the staggered phases with the opposite sign of the code (`C66_operator`; the sign of all phases together does not matter for the action).
- C67: `Hasenbusch_action_2::action(Field<double> &S)` (hmc/fermion_field.h:275-289) applies `D.dagger` where `action()` applies `D_h.dagger`, and adds the result at the even sites whatever the sites of the operator are (`C67_hasen_field_wrong`).
- C66, C67: dirac/staggered.h, dirac/wilson.h and hmc/gauge_field.h include `datatypes/sun.h`, which is not in the repository; the types and functions from it are modelled from their use.
- **C68.** `Field::shift` (field_comm.h:178-266), and with it the buffered shifts behind `f[X + v]`, ignores the boundary conditions after the first step: the second and later steps read a temporary field `r1` or the result `res`, which have their own (by default periodic) boundary conditions. On four antiperiodic sites the shift by 2 gives `+f(1)` at site 3 instead of `-f(1)` (`C68_shift_wrong`). Shifts of one step, and shifts that do not move in an antiperiodic direction, are right (`C68_shift_partial`).
- **C69.** `set_local_boundary_elements` of the vector backend (field_storage_backend.h:211-226) with antiperiodic boundaries negates every lane of the boundary vectors if the node has the edge of the lattice. If the direction is divided into several subnodes, most of these lanes read over an inner boundary between two subnodes, where the sign must not change. Witness `C69_antiperiodic_wrong`: lattice 8 × 4 on one rank, two subnodes along x, antiperiodic in x: site (3,0) reads minus the value of (4,0). `antiperiodic_inner` shows it for every such layout. Proved instead: `C69_antiperiodic_partial` for directions with one subnode.
- **C70** `srcBuf` (hilapp/src/srcbuf.cpp). If text has been prepended and the last character of the buffer has been removed, the text written out has one space too many at the end (`C70_trailing_space`). `comment_range` on a range that ends in a newline also comments out the beginning of the following line (`C70_comment_wrong`); the only present caller (toplevelvisitor.cpp:2929) ends its range at `;`.
- **C71** `srcBuf::replace_tokens` (hilapp/src/srcbuf.cpp:618-679). The suffix of a number is taken as a name: with a template parameter `U` the literal `1U` becomes `1double` (`C71_suffix_wrong`). Character constants are skipped with a fixed length: after `'\012'` the next name is not replaced (`C71_char_wrong`). A block comment that begins with a slash is taken to end at once, and names inside it are replaced (`C71_comment_wrong`).
- **C72** `find_word` (hilapp/src/stringops.cpp:87-107) looks only at the first occurrence: in `fa, f` the word `f` is not found (`C72_word_missed`), so `#pragma hila direct_access(fa, f)` has no effect on `f`. The test of the following character has an off-by-one bound: `int` is found in `int4` (`C72_word_false`). The loop that vectorises a type (vectorization_info.cpp:211-221) inherits both: `P<double,double_t,double>` keeps its last `double`, and `double2` becomes `Vec4d2` (`C72_type_wrong`).
- **C72** `contains_word_list` (hilapp/src/stringops.cpp:111-139) ignores where words end: `#pragma hila skipping` is taken as `skip` with the remainder `ping` (`C72_pragma_wrong`).
- **C72** `clean_name` (hilapp/src/stringops.cpp:26-58) gives `f[0]` and `f_0_` the same name; the generated code (codegen.cpp:258) then declares one variable twice (`C72_clean_name_wrong`).
- **C74 (reductions on graphics processors).** (1) With overlapping communication the array for the results of blocks is allocated for the blocks of the first range (`codegen_gpu.cpp:464`), but the second range can have more: on a rank with 12⁴ sites the second kernel has 42 blocks and the array 40 elements (`C74_overlap_wrong`); a first range without sites is launched with no blocks. (2) The place of a private copy of a reduction vector is computed from `gridDim.x`, which differs between the two kernels; contributions land in other elements (`C74_vector_overlap_wrong`). (3) With `GPU_VECTOR_REDUCTION_THREAD_BLOCKS` 0 the sums of the atomic operations stay on the device: `a_v__tmp` is allocated and never filled, and its content is added to the vector (`C74_vector_atomic_wrong`). (4) A product of reduction vectors is combined by `sum_blocked_vectorreduction`, a sum (`C74_vector_product_wrong`). (5) A number of threads that is not a power of two loses contributions (`C74_threads_wrong`), and one that is not a multiple of `GPU_BLOCK_REDUCTION_THREADS` counts the next element (`C74_vector_threads_wrong`). (6) A rank with no site of the parity of the loop launches a kernel with no blocks, which stops the program (`C74_no_sites`). Not modelled because they do not compile: `_hila_kernel_mul_var`, used for products with overlapping communication, is not defined anywhere, and `gpu_set_value(dev_r, 1, N_blocks)` deduces two types for a product that is not an `int`.
- **C76 (selections in loops over one parity on graphics processors).** The kernel resets `mask[i]` only for sites of the loop, but `copy_data_to_host_vector` compacts the mask over `mynode.volume` sites, and the mask comes from `gpuMalloc` without initialisation. In a loop over EVEN or ODD, sites of the other parity are returned whenever the memory is not zero, with arbitrary site indices and values (`C76_parity_wrong`).
- **C13, C76 (second selection of a site).** If the body selects a site twice with different values, the CPU version keeps the first value and stores the second in the next entry (C13), whereas the GPU version keeps the last value (`C76_all_sites`).
- C77: `has_conditional` is only set while `has_site_dependent_cond_or_index` is not (toplevelvisitor.cpp:1371-1395). A reduction vector or a table with a site dependent index before the end of the first conditional, also inside it, therefore hides the conditional: `if (g[X] > 0) f[X] = table[h[X]];` leaves the variable for `f[X]` without a value and stores it on sites where the condition is false. Witnesses `C77_table_wrong`, `C77_histogram_wrong`.
- C77: after `?:` the depth is set to 0 (toplevelvisitor.cpp:1397), so the rest of the same expression gets the number of a new statement. In `f[X] = (table[h[X]] > 0 ? 1 : 2) + f[X];` the read of `f` is taken for one after the assignment and `f` is not loaded. Witness `C77_operator_wrong`.
- C77: an assignment behind `&&` or `||` is not treated as conditional: `g[X] > 0 && (f[X] = 1);` stores a variable without a value where the condition is false. Witness `C77_shortcut_wrong`.
- C77: `continue` in a body is passed through to the generated loop and skips the code that stores the variables, so that assignments before it are lost. Witness `C77_continue_wrong`.
- **C78** (`codegen_cpu.cpp:80-86`): without `EVEN_SITES_FIRST` the translator still emits `start_gather` for
  neighbour references, then switches `generate_wait_loops` off ("change later!"), and with it every `wait_gather`.
  The loop reads halo slots while messages into them are under way: `C78_no_wait_wrong`.
- **C78** (`codegen_cpu.cpp:178-183`): without `EVEN_SITES_FIRST` a loop over a parity variable is guarded by
  `X.parity() == par`. If the variable is `ALL` at run time no site passes the test: `C78_runtime_parity_wrong`.
- **C78** (`codegen_cpu.cpp:162-330`, `toplevelvisitor.cpp:check_field_ref_list`): a loop over `EVEN` or `ODD` may read
  `f[X+d]` and assign `f[X]`. If the extent in direction `d` is odd, sites at the edge have neighbours of
  their own parity, and the result depends on the order of the sites: `C78_order_matters`.
- **C78** (`codegen_cpu.cpp:343-361`, not modelled): with `BOUNDARY_LAYER_LAYOUT` the loop over `_hila_ranges` is opened with one
  brace more than is closed.
- **C79** (`codegen_cpu.cpp:136, 154`): OpenMP product reductions use the operator `+`: the copies of the threads start from
  0, are multiplied and then added to 1. Every product, also `Field::product`, is 1: `C79_product_wrong`.
- **C79** (`toplevelvisitor.cpp:1752`): the check that a reduction variable occurs only once in a body is disabled by
  `if (false && …)`. Bodies with `s += …; s = …;` or `s += …; s *= …;` are accepted as sums and depend on threads and ranks:
  `C79_set_wrong`, `C79_scaled_sum_wrong`.
- C80: `x[X] && (y[X] = 1);` for integer fields is accepted for vectorisation, although it is a condition on the site.
  `&&` of vectors is an ordinary function (`vectorclass/vectori256.h` 2579), so that `y` is set at every site (`C80_shortcut_wrong`).
  Without vectors only the sites with `x` not zero are set.
- C81: `do_trajectory` of `sun_realtime` always runs whole intervals, so a trajectory whose length is not a multiple of the interval of
  measurements is longer than requested (`C81_length_wrong`: length 10, interval 4, last time 12 dt). A measurement interval of zero or less makes
  it endless (`C81_endless`). In `thermalize` the time between two drawings of the electric field is 1 only if 1/dt is a whole number
  (`C81_thermalize`).
- C82 (`cmplx.h` 1364-1367): `acosh(z) = log(z + sqrt(z*z - 1))` has the wrong sign of the real part in the left half plane. For real `x < -1` it
  returns `-arcosh(-x) + iπ` instead of `arcosh(-x) + iπ` (`C82_acosh_wrong`). `sqrt(z+1)*sqrt(z-1)` would be right.
- C82 (`cmplx.h` 1287-1290): `pow(x, p)` with a real base and a complex power calls the real logarithm, so a negative base gives NaN, while
  `pow(Complex(x), p)` is defined (`C82_scalar_power_wrong`).
- C82 (`cmplx.h` 1127-1145): `Imaginary_t` inherits `+=`, `-=`, `*=` and `/=`. After `a *= I` the imaginary object holds a real number, and its
  products with complex numbers are zero, because they use the imaginary part only (`C82_imaginary_wrong`).
- C82 (`cmplx.h` 84-87, not modelled): the comment says that the default constructor sets the number to zero; it is `= default` and leaves it unset.
* **C83, powers and arguments inside the matrix.** `pow` of a matrix stores the power in 32 unsigned bits
  (`matrix.h` 3252), so the power 2³² is the unit matrix and the power -1 a huge one, although `P` may be any
  integral type. `C83_pow_wrong`. `a += s` takes `s` by constant reference (`matrix.h` 813; `-=`, `*=`, `/=` take
  copies): `a += a.e(0,0)` adds the element to itself first and twice its value to the rest of the diagonal.
  `mult(a, b, a)` (`matrix.h` 2797) overwrites elements of `a` that are still read. `C83_alias_wrong`.
  Positive: `C83_pow_partial` (the power modulo 2³², hence right from 0 to 2³²-1), `C83_linear`, `C83_scalar`,
  `C83_product` (arguments that are other objects, and `a += a`, `a -= a`, `a *= a`).
* **C84, shape of products and arguments inside the matrix.** The products `D * M`, `M * D` and `M / D` take the result
  type of a sum of `Matrix<n,n>` and `M` (`diagonal_matrix.h` 775-822), which has `n` rows and `n` columns
  (`matrix.h` 2071). `D * v` with a vector is an `n`×`n` matrix with only the first column set; with more than `n` columns the
  loops write out of bounds. `C84_shape_wrong` (all sizes). `+=`, `-=`, `*=`, `/=` with a scalar take a constant
  reference (`diagonal_matrix.h` 185-250): `d /= d.e(0)` first sets the element to 1 and then divides the others by 1.
  `C84_alias`, `C84_alias_wrong`. The member `transpose() const` returns a reference that is not constant
  (`diagonal_matrix.h` 284) and does not compile when it is used.
  Positive: `C84_matrix` (square matrices, and compound assignments of all matrices), `C84_assign`, `C84_operators`.
- **C85** (`suN_hmc.cpp:489`): the program rejects if `exp(act_old - act_new) < random`. If the new action is not a number the comparison is false and the
  trajectory is accepted, `g_act_old` is not a number from then on and every later trajectory is accepted as well: `C85_nan_wrong`. `update_hmc`
  of the library accepts if `random < exp(...)` and so rejects.
- **C85** (`hmc/fermion_field.h:128-131, 302-304` with `cmplx.h:344-349`, `random.cpp:185`): the pseudofermion is drawn as `D† ψ` with `ψ` from `gaussian_random()`, whose real and
  imaginary parts have variance 1, that is with weight `exp(-ψ†ψ/2)`, while the action is `χ† (D†D)⁻¹ χ`, without the factor 1/2. The update does
  not keep the weight `det(D†D)`: `C85_fermion_width_wrong`. With variance 1/2 it does: `C85_pseudofermions`.
- **C86 (seeding does not reset `gaussrand`).** `seed_random` starts the generator anew but not the static variables of `gaussrand` (random.cpp:222-231). After an odd number of calls of `gaussrand` (for example one `gaussian_random` of a real number, of an algebra with an odd number of generators, or of a `U1`), the first number after seeding is the number left over from the old seed, so the same seed gives different numbers (`C86_reseed_wrong`).
* **C87, trials that run out.** `KennedyPendleton` (`KennedyPendleton.h` 49-63) stops after 100 trials, and after the 100th, accepted or not, it
  takes the trace `1e-9`: links of this trace have weight zero in the distribution but are returned with positive probability
  (`C87_kennedy_wrong`). `suN_heatbath` goes on with the last rejected trial. Positive: `C87_kennedy_partial`, `C87_heatbath_partial`, and
  `C87_failure`, which bounds the probability in `suN_heatbath` by `2e-8` for a hit.
- **C88, xy on several ranks.** `xy.cpp:57-59` chooses the parity of the next loop with `hila::random()` outside of a site loop. Every rank has its own generator, so on two ranks the parities differ with probability 1/2 (`C88_xy_ranks_wrong`), and the loop then changes neighbouring sites of the two ranks at the same time with values of each other from before the loop. The distribution is then no longer kept. The choice should be broadcast (as `hila::shuffle_directions_and_parities` does).
- **C90, Wilson operator** (libraries/dirac/wilson.h:44-48, 81-92). The second term of both hopping loops is `(kappa * vtemp[dir][X + dir]).expand(dir, -sign)`. The code has prepared and gathered `vtemp[-dir]` (`U† (1 - s γ) ψ`) for this term, but nothing reads it; the term should be `vtemp[-dir][X - dir]`. So a source has no effect at the site above it (`C90_apply_wrong`), `dagger` is not the adjoint of `apply` (`C90_dagger_wrong`, for every link field), and the operator is not gauge covariant (`C90_covariance_wrong`). `C90_back_field` proves that the unread field holds the right term. The force (`C90_force`) is that of the Wilson operator, so an HMC with these classes would not conserve its Hamiltonian.
- **C90, half vectors** (libraries/datatypes/wilson_vector.h). The comment on `squarenorm` of half vectors promises the squared norm of `(1 ± γ) w` "thus the factor 2"; the function has no factor (`C90_half_norm_wrong`; `C90_half_norm` gives the right relation). Read as text the headers also do not fit the rest of the library: they include a header that does not exist, use class names in old spelling, and the comment on the even-odd operator gives the determinant as a sum where it is a product.
- **C91, forces of the symmetric and the antisymmetric representation** (libraries/datatypes/representations.h:193-211, 226-238, 334-352, 366-378). `project_force` loops over `g < size` and `represented_generator_I` has a table `r_generators[size]`, where `size` is N(N ± 1)/2, the dimension of the representation. There are N² - 1 generators. For N ≥ 3 the loops end before the last ones and the force has no component along them: `C91_sym_force_wrong`, `C91_antisym_force_wrong` (for every N ≥ 3 and every basis). The adjoint representation, where both numbers agree, and the symmetric one for N = 2 are right: `C91_adjoint_force`, `C91_sym_force_two`. A molecular dynamics trajectory with these forces does not follow the action.
- **C91, sign of the antisymmetric generators** (representations.h:193-211). `represent` uses `generator(j).adjoint()` on the right, `represented_generator_I` uses `generator(k)`, which is minus that; so it returns minus the represented generator times i: `C91_antisym_generator_wrong`. `project_force` takes the adjoint of the table, which puts the sign right.
- **C91, missing names.** representations.h includes "sun.h" and hmc/gauge_field.h uses `project_antihermitean` and `SU::generator`; none of them exists in the repository, so these headers cannot be compiled.
- C92: `measure_polyakov_surface` (suN_gauge_surface.cpp:352-375) declares `max = 0` and `int minloc, maxloc` without values. If no value of the profile is positive, `maxloc` is read without ever being set (`C92_start_unset`). The real part of the Polyakov loop can be negative, so such profiles occur in the confined phase.
- C92: the interpolation of a surface (suN_gauge_surface.cpp:421-423, 443-446) divides by the difference of two values without a test. Where a line has no surface the loops end at the limit of 0.4 of the length, and for a line of equal values this is a division by zero (`C92_surface_constant`); in other cases without a surface it extrapolates.
- C92: `measure_action` (suN_gauge_surface.cpp) calls `measure_plaq_bp`, which is not defined; the template is never instantiated. `trajectory_with_range` has a parameter `double &poly` that it never uses; the caller's `p_now` stays at the value of the start of the run. In `update_once_with_range` the proposal for N > 2 is a sequence of updates of SU(2) subgroups in a fixed order; this keeps the distribution of the action but is not reversible, so that accepting or rejecting it with `accept_polyakov` does not in general keep the distribution with the potential (remark, no theorem).
- C93: `gpu_memory_pool_alloc` (memory_pool2.cpp:352-366) takes a further slab of a fifth of the memory of the device. `gpu_memory_allocate` rounds the size up to a multiple of 256 for the system, but the block gets the size that was not rounded. Blocks are cut from the upper end of a gap, so when a fifth of the memory is not a multiple of 256 every allocation in such a slab has an address that is not aligned. With 16945512448 bytes the address is odd (`C93_aligned_wrong`). `C93_aligned_partial` has the condition under which the addresses are aligned.
- C93: `gpu_memory_allocate` (memory_pool2.cpp:104-129) adds the size to `total_pool_size`, and the caller adds it again at line 363. All slabs but the first are counted twice (`C93_end` has the exact count), so the program ends with "out of memory in GPU pool" while both limits would allow one more slab (`C93_total_wrong`).
- C93: a request of zero bytes makes a block of size zero at the upper end of a gap, with the address of the allocation above it (`C93_zero_shared`); giving this address back releases whichever of the two is first in the list. The theorems are for requests of at least one byte.
- C94: `site_shift` (z_link_model.cpp:353-384) moves all links by one site and adds to the links of the last direction what the staggered shifts of `PLAQ_SHIFT` 2 need. It does not look at the shifts. With `n_ps_update` > 0 these are changed by `update_sw_parity_dir`, and static pairs add to them at fixed sites; the move is then accepted although the action changes. `C94_site_shift_wrong`: with all signs changed, the move multiplies the action of the field without links by 9. Positive: `C94_site_shift`, `C94_samples` with the hypothesis `ZSound`.
- C94: `do_trajectory` (z_link_model.cpp:438-449) shifts all links of a direction, "value of the action is invariant". The overrelaxation (191-222) rounds halves away from zero with `lround`, so its proposals are not invariant: `C94_relax_shift_wrong` has a link that is moved before the shift and not after it. Positive: `C94_normalise`, `C94_trajectory_partial`.
- C96: `setup_timelimit` (timing.cpp:240-256) tries four formats and accepts whatever the last one reads. `d-h` and `d-h:m` (which slurm accepts for its own `--time`) become `d` seconds, and text after a number of seconds is ignored, so `2h` are 2 seconds (`C96_timelimit_wrong`). The program is not told.
- C96: a limit of zero seconds, which `squeue` prints as `0:00` when no time is left, is the value for "no limit" (timing.cpp:185, 341): `time_to_finish` then never says yes (`C96_zero_limit_wrong`).
- C96: if `popen` fails, `pclose` is called with a null pointer (timing.cpp:216-231, `C96_slurm_undefined`).
- C96: `timer::start` puts the timer into the list whenever its count is zero, and `reset` sets the count to zero (timing.cpp:47-51, 69-71). A timer that is reset and used again stands in the list twice and is reported twice; `remove` erases one entry, so after its destruction the report reads a timer that does not exist (`C96_timer_reset_wrong`).
- **C97, work array.** On graphics processors the FFT copies the columns of a rank to `fft_wrk`, which has `buf_size` values for each element (fft_gpu_transform.h:293). `buf_size` is the larger of the volume of the rank and of the data received from other ranks; the columns need `my_columns * size(dir)` values. The columns are divided over the ranks by `i*total/n`, so a rank can have more than its share: on a 12 x 4 x 4 lattice on 3 ranks the third rank has 6 columns of 12 sites, 72 values, in an array for 64. The gather kernel writes outside of the array (`C97_work_array_wrong`). The code for the CPU has no such array.
- **C97, no columns.** If the number of columns of a rank is smaller than the number of ranks in the direction, some ranks have none, and the kernels are started with zero blocks, an invalid configuration; the error is found by `check_device_error` and ends the program (`C97_no_columns_wrong`: 8 x 2 lattice, 4 ranks). The CPU code does nothing on such ranks.
* **C98, the rotation is not the maximum.** `suN_max_staple_sum_rot` is documented to find the SU(N) matrix that maximizes Re tr(V staple). It only turns SU(2) subgroups, and for three colors it can stop at a matrix that no such turn improves: for the staple `(1 + 4i) 1` it returns the unit matrix whatever the order, the tolerance and the number of iterations, but `exp(-2 pi i / 3) 1` gives more (`C98_not_max_wrong`; the class of these staples is `C98_stationary`). What holds: `C98_rot_partial`, `C98_last_subgroup`, `C98_two_maximum`; the update does not need the maximum (`C98_keeps`).
* **C98, vanishing projection.** If the projection of the staple on a subgroup vanishes, `ki = 1.0 / sqrt(0)` is infinite and the link becomes NaN: for the staple zero, but also for `diag(1, -1)` (`C98_zero`). `C98_keeps` shows that this has no influence on the distribution otherwise.
* **C98, negative coupling.** `ds > 0` is accepted without a look at `beta`; for `beta < 0` all proposals are accepted (`C98_negative_beta`). `C98_keeps` is for `beta >= 0`.
* **C99, the start-up test overflows.** `gather_test` sums the differences over the lattice in `int` and compares `dif.squarenorm()`, also computed in `int`, with zero. Any error with a sum of 46341 or more is undefined behaviour (`C99_unshifted_undefined`). With integers that wrap around, the plainest error, gathers that do not shift at all, gives sums that are multiples of 65536 on lattices whose layers have a multiple of 65536 sites (64^4, 32*64^3), the squares are 0 modulo 2^32 and no error is reported (`C99_unshifted_not_found`, for all ranks, with and without even sites first). A comparison of the components themselves, or a 64-bit sum, would find it. `C99_small` gives the lattices on which nothing can overflow.
* **C99, odd sites.** The comment of the test speaks of the standard gather; loops over odd sites are never tested (`C99_odd_not_tested`).
- C96: numbers of the time limit with a minus sign are read modulo 2^32 (`-1` is a limit of 136 years, `C96_timelimit_signs`); numbers of 2^32 or more are undefined behaviour of `sscanf` (`C96_timelimit_overflow`).
* **C100, numbers cut to 32 bits.** `partitions.set_number` takes an `unsigned`: `-partitions 4294967296` divides by zero, `4294967297` runs one lattice silently (`C100_number_cut`). `hila::myrank() * hila::partitions.number()` is `unsigned` and wraps around: with 131072 ranks in as many partitions rank 32768 joins partition 0 and some partitions have no rank (`C100_product_wraps`). `C100_split` holds while ranks times partitions is at most 2^32.
* **C100, seed from the clock.** With the seed 0 each partition reads the clock of its own rank 0 (`broadcast` is inside the partition after the split), and the partition number enters by `xor` with bit 28 and an addition; two partitions whose clocks differ by two seconds and some nanoseconds can get the same generator (`C100_clock_collision`). `C100_seeds` needs a common seed.
* **C100, `-check` with partitions.** The check of the layout uses all ranks for one lattice, the run only those of a partition (`C100_check_layout`), so that a layout can pass the check and fail in the run.
- **C101, fields on graphics processors.** `field_storage<T>::get` and `set` compute the index `e * field_alloc_size + i` in 32-bit unsigned arithmetic (`backend_gpu/field_storage_backend.h:40-77`), but only `field_alloc_size < 2^32` is checked (`lattice.cpp:961`), not `n_elements * field_alloc_size`. If a field has more than 2^32 numbers on a rank the index wraps around inside the allocation: the write of one site silently changes another (`C101_index_wraps`, with SU(3) matrices on 250000128 sites, 18 GB in single precision).
- **C102, constant action flow: zero forces.** `get_cs_force` divides by the norm of the force and of the projected direction at every link without a test (`gauge/cs_flow.h:69-71`). Where a force is zero or the direction is parallel to it the result is not a number, and spreads (`C102_undefined`). On unit links, the start of the programs, this happens for every direction and every action (`C102_cold`, `C102_cold_flow`).
- **C102, constant action flow: rejected steps.** When a step is rejected, `do_cs_flow_adapt` restores the links but not the direction `E`, which is then the one of the rejected trial at its last stage (`cs_flow.h:385-389`). The flow after it starts in another direction than before, so that the result depends on trials that were thrown away (`C102_rejected_step`). `do_gradient_flow_adapt`, which has no such state, is right (`C60_time`).
- **C103 (`Field::min`/`max` on graphics processors, gpu_minmax.h:68-109).** For an empty array the library returns the position 1. A rank without sites of the parity therefore reads the coordinates outside of their table (`C103_empty_rank`). In the storage order for overlapping communication the first range is empty on every rank without inner sites of the parity; if no value is below the largest finite number, `min` returns that number even if it is nowhere in the field, and a location that may have the wrong parity (`C103_overlap_wrong`).
- **C104 (scan of the source text by hilapp, sourceloc_utils.cpp).** The loop over a C-style comment (line 36) stops at the first `*` or before the first `/`, not at `*/`: comments such as `/** ... */` are read as text from their third character on, and a parenthesis in them ends the list (`C104_comment_wrong`); `out_only` after the list is then not seen. `skipString` uses the comment-skipping step after the opening quotation mark, so `"//"` hides the rest of the line (`C104_string_wrong`); a comment directly after a literal is not skipped (`C104_after_literal_wrong`); digit separators are taken for character literals (`C104_separator_wrong`); words separated by a comment only are joined (`C104_joined_wrong`). No scan stops at the end of the file (`C104_runs_over`).
- C105 `C105_initialiser_wrong`: hilapp looks for random numbers only in the text of function bodies (`FD->getBody()`, `/repo/hilapp/src/contains_random_visitor.cpp:46-60`). A number drawn in the initialiser list of a constructor, in a default argument or in a destructor is not found. The loop then gets `#pragma omp parallel for` (`codegen_cpu.cpp:116-150`) and the threads race on the state of the generator.
- C105 `C105_marked_ctor_wrong`: `handle_constructor_in_loop` (`/repo/hilapp/src/loop_function.cpp:186-213`) reads the pragma `contains_rng` of a constructor into the record of the call only. The flag of the loop is not set, and the later search (`contains_random`) looks at call expressions only, not at constructors. So a constructor declared with the pragma, with its body in another file, leaves the loop parallel.
- C106 `C106_altexp_wrong`: `altexp` (`/repo/libraries/datatypes/matrix.h:3322-3373`) ends when the squared norm of the partial sum does not change. For `A = diag(2i, -2i)`, which is in the algebra of SU(2), the sums `1 + A` and `1 + A + A²/2` have the same squared norm 10, also in floating point. The result is `diag(-1 + 2i, -1 - 2i)` with determinant 5, so `nchm_stout_smear` leaves the group. The same happens for the real matrix -2, whose exponential comes out as 1.
- C106 `C106_niter_wrong`: if the loop of `altexp` reaches `15 n` without the test being met, `niter` keeps its first value 1 (`matrix.h:3329`). `nchm_stout_smear_force` (`/repo/libraries/gauge/stout_smear_nchm.h:265`) hands this number to `mult_exp` as the order, which then takes `1 + A` for the exponential, although the smeared field was made with `15 n` terms.
- C107 `C107_rewrite_wrong`, `C107_rewrite_happens`: if a thermalisation trajectory is rejected, `trajectory` is decremented before the test for a checkpoint (`/repo/applications/suN_hmc/src/suN_hmc.cpp:495, 567`, the same in `suN_hmc_stout_comp.cpp`). After a rejection directly behind a checkpoint the program writes the checkpoint of the same number again, into the configuration file that `run_status` names. A crash during this writing leaves a run that cannot be restarted; the two alternating files are meant to prevent exactly this.
- C107 `C107_overflow_wrong`, `C107_overflow_happens`: `p.trajlen *= 2` is repeated once per rejection (`suN_hmc.cpp:459-462`) without a bound. After at most 32 rejections in a row during thermalisation the `int` overflows.
- **C108 (gauge covariance of the smeared links).** `stout_smeared_field::refresh` (`libraries/hmc/smearing.h:145-149`) forms `Q` from `U_d(x) S(x)`, which belongs to the site `x`, but stores `U_d(x) exp(Q)` instead of `exp(Q) U_d(x)`. The smeared links of a gauge-transformed field are then not the transformed smeared links: `C108_gauge_wrong` (SU(2), lattice 2 x 1, one step); `C108_transform` gives the law in general and shows that the other order would be right. The same line is in all three levels of `HEX_smeared_field::refresh` (289-294, 308-313, 325-330). The force is the exact derivative of what is computed, so that the program runs without a visible error.
- **C108 (zero smearing steps).** `allocate()` (`libraries/hmc/smearing.h:115-124`) writes `staples[smear_steps - 1]` and `smeared_fields[smear_steps - 1]` also if `smear_steps` is 0: entry -1 of both arrays, `C108_zero_steps_wrong`.
- **C108 (missing function).** `project_antihermitean` is called in `smearing.h`, `gauge_field.h` and `representations.h` but is defined nowhere in the repository; the model takes the projection to the traceless antihermitean matrices.
- **C109, equal generators on nodes of different size** (`hila_gpu.cpp:328-329`). The seed of a rank is `seed + myrank() * n_sites` with the number of generators of *this* rank. If the nodes have different sizes the products can agree: for ten slices on four nodes the ranks 2 and 3 have 3 and 2 slices, and all generators of the rank 3 are in the same state as those of the rank 2 (`C109_seeds_wrong`). With the default `GPU_RNG_THREAD_BLOCKS` this needs fewer than 7937 sites on a node (`C109_large_nodes`), without the restriction it can happen for any size (`C109_seeds_wrong_general`).
- **C109, the memory of the generators is not enlarged** (`hila_gpu.cpp:306-336`). It is allocated for the lattice in use at the first call. Loops over a larger lattice read outside of it, and seeding again writes outside of it (`C109_lattice_wrong`).
- **C110, global variables in namespaces referred to without the namespace** (`generalvisitor.cpp:789-816`). The declaration uses the full name, the reference only what is written: inside of the namespace, or after `using namespace`, `a()` in a loop is replaced by the device variable of the `a` at file level. If it exists its value is used silently, otherwise the generated code cannot be compiled (`C110_namespace_wrong`, `C110_namespace_wrong_general`).
- **C110, names of device variables** (`generalvisitor.cpp:764-783`). `x_::y` and `x::_y` get the same device variable, and a variable in a namespace without name gets a name that is no identifier (`C110_underscore_wrong`).
- **C111, products of U1** (`u1.h:120-124`). `a * b` is written with `a += b`, which does not exist: programs that use it cannot be compiled (`C111_product_wrong`). Assigning 0 sets the phase to 0, that is the element to 1 (`C111_zero_wrong`).
- **C112, vectors of 2^31 bytes and more** (`com_mpi.h:207-209, 313-316, 329-333`). The number of bytes is converted to `int`. From 2^31 to 2^32 - 1 bytes it is negative and MPI stops; with 2^32 + c bytes only c bytes are sent, and the receivers have zeros in the rest, without a message (`C112_vector_wrong`, `C112_send_wrong`). A `std::vector<double>` of 2^29 elements arrives as zeros.
- **C112, `reduce_node_product` of complex numbers** (`com_mpi.h:391-419`). The number of elements given to MPI is not multiplied with the number of components: the result is the product of the real parts, with imaginary part zero (`C112_product_wrong`).
- **C113, functions of integer arrays** (`array.h:1171-1405`). The results are stored in an array of the same element type and cut to integers: `pow(a, -1)` is 0 for all elements greater than 1 (`C113_functions_wrong`).
- **C113, `max` and `min` with not-a-number** (`array.h:703-759`). Not-a-number is the result when it is the first element and is ignored in all other places, so the result depends on the order of the elements (`C113_nan_wrong`).
- **C113, `size()` of 1 × 1 arrays** (`array.h:164-177`). All three overloads exist, the call is ambiguous and does not compile (`C113_size_wrong`).
- **C113, initializer lists in release programs** (`array.h:131-138`, `params.h:15-25`). `RELEASE` switches the assertion off: a list which is too long is written behind the end of the array, one which is too short leaves elements without value (`C113_init_wrong`).
- **C114, constructors and `#pragma hila novector`** (`loop_function.cpp:127-240`, `contains_novector_visitor.cpp:29-60`). Neither the mark of a constructor nor its body is looked at, so a loop which constructs such an object from site dependent values is vectorized (`C114_constructor_wrong`, `C114_constructor_inside_wrong`).
- **C114, functions without visible body** (`loop_function.cpp:41-62`). They count as vectorizable although the comment says that they are not (`C114_no_body_wrong`).
- **C114, inverted mark of calls in functions** (`loop_function_visitor.cpp:344`). `is_vectorizable = contains_novector(...)` lacks the negation of `loop_function.cpp:47`. The value is not used at this commit because lines 602-618 are switched off (`C114_inner_mark_wrong`).
- **C115, parts of variables from outside** (`addrof_and_ref_visitor.cpp:71-112, 205-228`). Only whole variables are checked: `&v.x`, `auto &r = v.x` and the same for array elements are accepted for variables shared by all sites (`C115_part_wrong`).
- **C115, parts of field elements** (`addrof_and_ref_visitor.cpp:118-140, 187-205`). `auto &r = f[X].re; r = 1;` is accepted and the field is not marked as written, so its halo counts as still valid (`C115_field_part_wrong`).
- **C115, casts of parentheses** (`addrof_and_ref_visitor.cpp:71-73`). Parentheses are removed once, before the casts: `&(T &)(v)` is accepted for a variable from outside (`C115_cast_wrong`).
- C116 (`hilapp/src/toplevelvisitor.cpp:519-555` and 605-612). The check that a changing element of an ordinary array is not assigned to comes after the search for earlier references, and the search returns when the array was seen before. So `x = a[f[X]]; a[f[X]] = y;` and `x = a[f[X]]; a[0] += y;` are accepted and nothing is reduced, while the assignment alone is refused. `C116_read_then_write_wrong`, `C116_write_refused`.
- C116 (`hilapp/src/toplevelvisitor.cpp:505-512`). Every operator other than `+=` on a `ReductionVector` is taken as a product: `r[f[X]] -= y` starts with `init_product` and ends with `reduce_product`. `C116_minus_wrong`.
- C116 (`hilapp/src/toplevelvisitor.cpp:582-603`). References with fixed index are kept in another list, so `y = r[0]; r[f[X]] += y` is accepted although the other order is refused, and so is `a[0] += y; x = a[f[X]]`. `C116_mixed_wrong`.
- C117 (`hilapp/src/toplevelvisitor.cpp:1752-1773`). The check that a reduction variable has no other reference in the loop is disabled by `false &&`, so that after one `+=` every other assignment and every read is accepted and the variable is summed. `C117_other_wrong`.
- C117 (`hilapp/src/hilapp.h:202-204`, `toplevelvisitor.cpp:1797-1810`). The names of the legal types are compared with canonical types. Clang writes `unsigned` as `unsigned int`, so `*=` to an `unsigned` variable is refused with a message which names `unsigned` as allowed. `C117_unsigned_wrong`.

## Axioms of each theorem

From `#print axioms`, for the theorems listed in MANIFEST.json.

| Axioms | Theorems |
|---|---|
| none | C13_not_updated, C13_not_in_bounds, C108_zero_steps_wrong, C109_seeds_wrong, C109_seeds_wrong_general |
| propext | C15_not_purge_cpu, C19_order_dependent, C24_mixed_state, C24_prev_not_used, C24_initial_configuration_ignored, C24_lost_without_save_old, C32_opposite_parity, C70_trailing_space, C77_table_wrong, C77_histogram_wrong, C77_operator_wrong, C77_shortcut_wrong, C77_continue_wrong, C79_product_serial, C79_product_wrong, C93_zero_shared, C104_runs_over, C105_initialiser_wrong, C105_marked_ctor_wrong, C107_restart, C109_reseed, C113_nan_wrong, C113_size_partial, C113_size_wrong, C115_address_partial, C115_reference_partial, C115_static, C115_part_wrong, C115_field_part_wrong, C115_cast_wrong, C116_minus_wrong |
| propext, Classical.choice, Quot.sound | C01_unique_rank_and_slot, C01_every_slot_filled, C01_loop_ranges, C01_plain_order_roundtrip, C01_global_coordinates, C02_rank_iff_box, C02_box_valid, C02_no_empty_rank, C02_site_counts_add_up, C03_neighbour_is_periodic, C03_gather_reads_neighbour, C04_expected_is_sent, C04_sent_is_expected, C04_assert_holds, C04_single_partner, C04_one_sender_one_receiver, C04_order, C04_sitelist_entries, C04_halo_slots, C05_reads_latest_partial, C05_all_gathers_any_extent, C05_stale_halo, C06_shift, C06_shift_parity_partial, C06_shift_parity_odd, C07_get, C07_gather_any_root, C07_set, C07_scatter, C07_roundtrip, C07_layout_independent, C07_set_size_mismatch, C08_write, C08_read, C08_roundtrip, C08_two_fields, C08_zero_buffer_never_ends, C09_tiled, C09_same_size, C10_immediate_partial, C10_defined, C10_delayed_partial, C10_not_delayed_reuse, C10_not_assigned_value, C10_not_delayed_plus, C10_field_sum, C10_plain_variables, C11_immediate_partial, C11_delayed_sums_partial, C11_not_delayed_product, C11_not_two_delayed_products, C11_not_delayed_assign, C11_not_nonblocking_assign, C12_joined_selection, C12_site_index, C12_no_join, C13_values_partial, C14_min_partial, C14_max_partial, C14_integer_values, C14_not_max_nonpositive, C14_min_not_located, C15_alloc, C15_held_blocks, C15_free, C15_purge_gpu, C16_labelling_ends, C16_same_label_iff_connected, C16_label_is_smallest, C16_cluster_list, C16_number_of_clusters, C16_sites, C16_area, C17_transforms_lines_partial, C17_layout_independent_partial, C17_no_direction_undefined, C17_in_bounds, C17_messages_match, C17_fft_partial, C17_fft_back_partial, C18_reflect_partial, C18_odd_extent_wrong, C18_no_direction_undefined, C19_always_defined, C19_accepted_partial, C19_accepts, C19_order_independent_partial, C19_missing_value_accepted, C20_next_token, C20_label_iff, C20_get_value, C20_wrong_label, C20_override, C20_override_without_value, C20_get_list, C20_get_vector, C20_integer_partial, C20_trailing_characters_accepted, C20_get_complex_partial, C20_documented_complex_rejected, C20_get_item, C21_shuffle_uniform, C21_shuffle_perm, C21_directions_and_parities, C22_seeds_distinct, C23_table_complete, C24_crash_outcome, C24_restores_saved_partial, C24_never_lost, C25_bin_encloses, C25_bin_hit, C25_linear_interpolation, C25_equidistant, C25_file_exact, C25_weight_at_centre, C25_hard_walls, C25_weight_continuous, C25_acceptance, C25_file_loses_digits, C25_file_merges_bins, C26_elementary_updates, C26_reversible, C26_momentum_reversal, C27_terminates_partial, C28_matrix, C28_operations, C28_group, C28_normalize, C28_projection, C28_algebra, C28_squarenorm_half, C29_overrelax_partial, C29_hit_involution, C29_zero_staple_undefined, C29_dfj, C29_dfj_keeps, C30_ownership, C30_block_from, C30_unblock_to, C30_block, C30_unblock_partial, C30_unblock_elsewhere, C30_block_by_one, C30_unblock_stale, C30_block_to_current_partial, C30_block_to_current_same, C30_block_to_current_rejected, C30_block_to_current_stays, C30_block_gauge, C31_valid_division, C31_printed_lengths, C31_ends_iff, C31_ends_partial, C31_never_ends, C32_pmod_representative, C32_pmod_unique, C32_mod_periodic, C32_is_direction, C32_step_flips_parity, C32_periodic_step_parity, C32_odd_extent_same_parity, C32_is_divisible, C33_plaquette_same, C33_plaquette, C33_staplesum, C33_staple, C33_reversed_staples, C33_polyakov_line, C33_polyakov, C33_long_link, C33_hmc_polyakov_not_invariant, C33_staplesum_odd_size, C34_roundtrip, C34_rejects_partial, C34_zero_extent, C34_negative_extent, C34_truncated_extent, C35_one_bin, C35_field, C35_total, C35_queries_partial, C35_binwidth_partial, C35_out_of_bounds, C35_stale, C35_binwidth_stale, C35_overflow, C35_real_field, C36_subvolume, C36_range_length, C36_slice, C36_write_subvolume, C37_permutation, C37_groups, C37_layout_valid, C38_add, C38_sum, C38_fresh_sum, C38_mul_partial, C38_mul_zero, C38_mul_forever, C38_mul_undefined, C38_compare_partial, C38_compare_double, C38_compare_int, C38_unsigned_minus, C38_unsigned_equal, C38_compare_wrong, C41_offset_reads_partial, C41_dangling_reference, C41_offset_odd_extent, C42_truncated_rejected, C42_config_truncated, C42_config_header_cut, C43_linked_sites_same_label_partial, C43_unlinked_sites_merged, C44_site_classes, C44_complex_to_real, C44_real_to_complex, C44_round_trip, C45_direct_iteration, C45_single_iteration_partial, C45_single_result_undefined, C45_canonical_iteration_partial, C45_canonical_last_bin, C45_canonical_last_bin_wrong, C46_save_overwrites, C46_history_lost, C46_history_partial, C46_coefficients_partial, C46_guess_last_vector, C46_guess_not_combination, C46_basis_not_orthogonal, C47_exp_is_matrix_exp, C47_exp_normalised, C47_log_exp_partial, C47_log_minus_one, C47_su2_exp_uninitialised, C48_heatbath_partial, C48_heatbath_leaves_group, C48_kennedy_pendleton, C49_inverse, C49_singular, C50_generators, C50_expand, C50_project, C50_roundtrip, C50_dot, C50_conjugation, C50_products_partial, C50_products_again, C50_bilinear, C50_bilinear_array_partial, C50_bilinear_array_transposed, C51_det_lu, C51_det_laplace, C51_det, C52_decompose_partial, C52_solve_partial, C52_invert_partial, C52_decompose_singular, C52_solve_singular, C53_eigen_partial, C53_size_one, C54_svd_pivot_partial, C54_svd_partial, C54_svd_never_converges, C54_svd_undefined, C54_singular, C54_pivot_not_unitary, C54_pivot_size_one, C55_make_unitary, C55_make_unitary_singular, C55_unique, C55_fix_det, C55_reunitarize, C55_reunitarize_singular, C55_reunitarize_fixes, C55_right_covariant, C55_random_su2, C55_random_su2_zero, C55_random_su2_onto, C55_random, C55_random_onto, C55_not_left_covariant, C56_wilson_line, C56_short, C56_covariant, C56_wilson_line_gauge, C56_reverse, C57_wloop, C57_wloop_from_wl, C57_wplaq, C57_wplaq_add, C57_impr, C57_wplaq_unique, C58_leaves, C58_covariant, C58_action, C58_action_gauge, C58_force, C58_charge_field, C58_charge_energy, C58_charge_gauge, C58_reflect, C58_charge_reflect, C59_divergence, C59_covariant, C59_fixpoint, C59_physical, C59_decrease, C59_returned, C59_converges, C59_loop, C59_degauss, C59_terminates, C59_returned_not_bound, C59_diverges_four, C60_descent, C60_energy_plaq, C60_energy_clover, C60_force_covariant, C60_zeuthen_not_covariant, C60_time, C60_group, C60_flow_covariant, C60_tableau, C60_order, C60_step_descent, C60_terminates, C61_chexp_value, C61_chexp_exact, C61_size_one, C61_count_lost, C61_count_partial, C61_derivative, C61_chexp_derivatives, C61_mult_chexp, C61_mult_chexpk_fast, C61_chsexp_wrong, C61_chsexp_partial, C62_staples, C62_staple_array, C62_smear1, C62_iter, C62_iter_negative, C62_list, C62_listk, C62_group, C62_covariant, C62_force, C62_force_action, C62_force_wplaq, C62_force_k, C62_force_b_1d, C63_inverse, C63_action, C63_positive, C63_barrier, C63_gauge, C63_force, C63_force_finite, C64_log_exp_partial, C64_centre, C64_near_minus_one, C65_log_exists, C65_plaq_mat, C65_clover_mat, C65_covariant, C65_gauge, C65_plaq_zero, C65_plaq_force, C65_clover_force_partial, C65_topo_dim, C65_topo_action, C65_topo_gauge, C65_topo_force_partial, C65_charge_energy, C65_charge_dim, C65_charge_gauge, C65_clover_force_wrong, C65_topo_force_wrong, C66_operator, C66_adjoint, C66_gauge, C66_normal, C66_free, C66_force, C66_evenodd_partial, C66_evenodd_adjoint, C66_evenodd_force, C66_evenodd_wrong, C67_hasenbusch, C67_draw, C67_force, C67_hasen_draw, C67_algebra, C67_hasen_force, C67_action_field, C67_gauge_force, C67_hasen_field_wrong, C68_gather, C68_messages, C68_slots, C68_shift_partial, C68_shift_wrong, C69_site_index, C69_vectors, C69_loops, C69_slots, C69_gather, C69_antiperiodic_partial, C69_antiperiodic_wrong, C70_edits_partial, C70_extents, C70_copy, C70_comment_partial, C70_comment_wrong, C70_remove_with_comma, C71_replace_partial, C71_suffix_wrong, C71_char_wrong, C71_comment_wrong, C72_find_word_partial, C72_word_missed, C72_word_false, C72_type_partial, C72_type_wrong, C72_pragma_partial, C72_pragma_wrong, C72_comment, C72_clean_name_wrong, C73_args, C74_race_free, C74_schedules, C74_sum_partial, C74_product_partial, C74_same_as_cpu, C74_threads_wrong, C74_overlap_partial, C74_inner_sites, C74_vector_partial, C74_vector_overlap_partial, C74_atomic, C74_atomic_sum, C74_vector_atomic_wrong, C74_vector_product_wrong, C74_vector_threads_wrong, C74_vector_overlap_wrong, C75_slots, C75_ranges, C75_first_range, C75_halo_order, C76_all_sites, C76_parity_partial, C76_parity_wrong, C77_flagged_partial, C77_translation_partial, C78_program_partial, C78_no_wait_wrong, C78_runtime_parity_wrong, C78_order_matters, C79_sum_partial, C80_vectorised_partial, C80_uniform, C80_uniform_straight, C81_trajectory_partial, C81_length_wrong, C81_endless, C81_thermalize, C81_gauss, C81_reversible, C81_gauge, C81_energy_value, C81_energy_partial, C81_charge, C82_arithmetic, C82_object, C82_functions, C82_scalar_power_partial, C82_scalar_power_wrong, C82_inverse, C82_acosh_partial, C82_acosh_wrong, C82_real, C82_imaginary_wrong, C83_linear, C83_scalar, C83_product, C83_square, C83_block, C83_pow_partial, C83_pow_wrong, C83_adjoint, C83_norm, C83_elements, C83_permute, C83_alias_wrong, C84_operators, C84_assign, C84_elements, C84_matrix, C84_compare, C84_values, C84_shape_wrong, C84_alias, C84_alias_wrong, C84_exp, C84_max, C84_functions, C85_library, C85_pseudofermions, C85_app, C85_wilson, C85_nan_wrong, C85_fermion_width_wrong, C86_su2_random, C86_sutwo_random, C86_momenta, C86_normal, C86_loop, C86_reseed_partial, C86_reseed_wrong, C87_heatbath_partial, C87_failure, C87_kennedy_partial, C87_kennedy_wrong, C88_ising, C88_ising_accept, C88_xy_accept, C88_xy_partial, C88_xy_ranks_wrong, C89_trajectory_partial, C89_overrelax_sweep, C89_relax_keeps_action, C89_relax_unit, C89_sweep_sequential, C89_heatbath_run, C89_trajectory_sweeps, C90_gamma, C90_half, C90_half_norm, C90_half_norm_wrong, C90_forward_partial, C90_back_field, C90_apply_wrong, C90_dagger_wrong, C90_covariance_wrong, C90_evenodd, C90_evenodd_source, C90_force, C91_adjoint, C91_antisym, C91_sym, C91_action, C91_adjoint_force, C91_sym_force_partial, C91_sym_force_two, C91_antisym_force_partial, C91_sym_force_wrong, C91_antisym_force_wrong, C91_antisym_generator_wrong, C92_staples, C92_action, C92_trajectory_partial, C92_polyakov_tracks, C92_range_stays, C92_accepts_towards, C92_numbers, C92_detailed_balance, C92_smear, C92_start, C92_start_unset, C92_surface, C92_surface_constant, C93_round, C93_safe, C93_free, C93_best_fit, C93_end, C93_aligned_partial, C93_maximum, C93_total_wrong, C94_staples, C94_samples, C94_start, C94_site_shift, C94_site_shift_wrong, C94_normalise, C94_trajectory_partial, C94_staples_shifted, C94_relax_shift_wrong, C94_density, C94_plaq_anti, C94_dual, C94_dual_dual, C95_local_action, C95_proposal, C95_update, C95_sequence, C95_reweight, C96_timelimit, C96_timelimit_wrong, C96_timelimit_signs, C96_timelimit_refused, C96_slurm_undefined, C96_time_to_finish, C96_signal, C96_zero_limit_wrong, C96_timers_partial, C96_timer_value, C96_timer_reset_wrong, C97_transforms_lines_partial, C97_same_as_cpu_partial, C97_reflect_partial, C97_outcome, C97_reflect_outcome, C97_equal_ranks_fit, C97_work_array_wrong, C97_no_columns_wrong, C98_rot_partial, C98_last_subgroup, C98_two_maximum, C98_pairs, C98_order, C98_distance, C98_stationary, C98_not_max_wrong, C98_zero, C98_outcome, C98_two, C98_two_defined, C98_keeps, C98_negative_beta, C98_stops, C99_detects, C99_no_false_alarm, C99_sites, C99_small, C99_count, C99_odd_not_tested, C99_unshifted_not_found, C99_unshifted_undefined, C100_split, C100_even_blocks, C100_rejected, C100_directories, C100_seeds, C100_number_cut, C100_product_wraps, C100_check_layout, C101_set, C101_gather, C101_place, C101_message, C101_boundary, C102_direction, C102_undefined, C102_constant_action, C102_repeat, C102_covariant, C102_energy, C102_cold, C102_time, C102_group, C102_cold_flow, C102_rejected_step, C103_minmax, C103_like_cpu, C103_empty_rank, C103_overlap_wrong, C104_parens_partial, C104_modifier_partial, C104_pairs_partial, C104_spaces_partial, C104_comment_wrong, C104_string_wrong, C104_after_literal_wrong, C104_separator_wrong, C104_joined_wrong, C105_ends, C106_exp, C106_exp_error, C106_mult_exp, C106_altexp, C106_consistent_partial, C106_altexp_wrong, C106_niter_wrong, C107_schedule, C107_metropolis, C107_number, C107_crash_partial, C107_rewrite_wrong, C107_rewrite_happens, C107_overflow_wrong, C107_overflow_happens, C108_stout_force, C108_hex_force, C108_hex_local, C108_momentum, C108_transform, C108_gauge_partial, C108_gauge_wrong, C108_allocate, C109_seeds_partial, C109_large_nodes, C109_partitions, C109_sites, C109_memory_partial, C109_lattice_wrong, C109_range, C109_uniform, C110_names_partial, C110_values_partial, C110_distinct_partial, C110_compiles_partial, C110_namespace_wrong, C110_namespace_wrong_general, C110_underscore_wrong, C111_group, C111_phase, C111_random, C111_product_wrong, C111_zero_wrong, C112_vector_partial, C112_vector_wrong, C112_string, C112_strings, C112_messages_partial, C112_sum, C112_product_partial, C112_product_wrong, C113_functions_wrong, C113_sums, C113_equal, C113_init_partial, C113_init_wrong, C114_lengths, C114_ends, C114_constructor_wrong, C114_constructor_inside_wrong, C114_no_body_wrong, C114_inner_mark_wrong, C116_vector_partial, C116_read_then_write_wrong, C116_mixed_wrong, C117_accepted_partial, C117_other_wrong, C117_unsigned_wrong, C117_types |
| propext, Quot.sound | C19_unknown_query_accepted, C22_single_rank_unchanged, C24_saved_is_restored, C25_outside_no_bin, C25_outside_weight, C25_one_bin, C25_file_roundtrip_partial, C26_no_substeps, C26_action_sum, C27_stopping_criterion, C27_exact_guess_undefined, C27_zero_source, C30_unblock_halo_partial, C32_opposite_direction, C32_direction_unit_vectors, C32_direction_arithmetic, C39_hmc_update, C39_all_rejected, C39_total_action, C39_refresh, C40_tags_in_step, C40_tags_distinct, C40_tags_repeat, C45_canonical_division_by_zero, C68_table, C69_storage, C70_indent, C72_whitespace, C72_clean_name, C73_nothing_lost, C74_no_sites, C74_overlap_wrong, C79_set_wrong, C79_scaled_sum_wrong, C80_shortcut_wrong, C93_aligned_wrong, C96_timelimit_overflow, C97_batches, C97_plans, C100_accepted, C100_clock_collision, C101_holds, C101_index_wraps, C101_wraps_defined, C105_found_partial, C105_parallel_partial, C109_disabled, C112_send_wrong, C113_assign, C113_operators, C113_functions_partial, C113_extrema_partial, C114_search, C114_decision_partial, C116_array_partial, C116_only_after_read, C116_no_vectors, C116_local, C116_known, C116_reads, C116_accepts, C116_write_refused, C117_reduction |
