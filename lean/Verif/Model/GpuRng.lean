import Mathlib.Data.Int.Notation
import Mathlib.Data.Nat.Notation

/-!
# Random numbers on graphics processors

Models the generators of `/repo/libraries/plumbing/backend_gpu/hila_gpu.cpp` (seeding, memory, `hila::random` in kernels), the seed given to them
in `/repo/libraries/plumbing/random.cpp`, and the number of threads of a loop with random numbers made by `/repo/hilapp/src/codegen_gpu.cpp`.

The XORWOW generator itself is a library function: a generator is represented by the two numbers that determine its state after
`gpurand_init(seed, subsequence, 0, state)`. `B` is `GPU_RNG_THREAD_BLOCKS` (0: not restricted, negative: disabled), `T` is `N_threads`.
-/

namespace Hila

/-- `n_blocks` of `initialize_device_rng` (hila_gpu.cpp:306-313) for a node with `vol` sites. -/
def rngBlocks (B : ℤ) (T vol : ℕ) : ℕ :=
  let nb := (vol + T - 1) / T
  if 0 < B ∧ B < nb then B.toNat else nb

/-- `n_sites` (hila_gpu.cpp:328): the number of generators. -/
def rngCount (B : ℤ) (T vol : ℕ) : ℕ := rngBlocks B T vol * T

/-- The arguments `seed` and `subsequence` of `gpurand_init` for the generator `x` of the MPI rank `rank` with `n` generators
(hila_gpu.cpp:287-293, 329); the sums are those of `unsigned long long`. -/
def rngInit (seed rank n x : ℕ) : ℕ × ℕ := (((seed + rank * n) % 2 ^ 64 + x) % 2 ^ 64, x)

/-- The seed of a partition (random.cpp:109-110): `seed ^ (mylattice << 28)` if there are several. -/
def partitionSeed (several : Bool) (seed lat : ℕ) : ℕ := if several then seed ^^^ ((lat <<< 28) % 2 ^ 64) else seed

/-- The memory of the generators: `none` if there is none, or one entry for every generator, `none` if it has not been set. -/
abbrev RngMem := Option (List (Option (ℕ × ℕ)))

/-- `initialize_device_rng(seed)` (hila_gpu.cpp:295-347) while a lattice with `vol` sites on this node is in use. The memory is allocated by the first
call only. The kernel writes the generators `0, ..., n - 1`; the result is `none` if one of them is outside of the memory. -/
def initDeviceRng (B : ℤ) (T vol seed rank : ℕ) (m : RngMem) : Option RngMem :=
  if B < 0 then some m
  else
    let n := rngCount B T vol
    let mem := match m with
      | none => List.replicate n none
      | some l => l
    if n ≤ mem.length then some (some ((List.range n).map (fun x => some (rngInit seed rank n x)) ++ mem.drop n)) else none

/-- `free_device_rng()` (hila_gpu.cpp:349-360). -/
def freeDeviceRng (_ : RngMem) : RngMem := none

/-- The number of blocks a loop with random numbers is restricted to (codegen_gpu.cpp:310-341, 407-426), 0 or negative if it is not restricted: `V` is
`GPU_VECTOR_REDUCTION_THREAD_BLOCKS` if the loop has a reduction to an array, 0 if not. -/
def loopBlocks (B V : ℤ) : ℤ := if 0 < V then (if 0 < B then min B V else V) else B

/-- The threads that draw random numbers in a loop over the sites `b, ..., e - 1` (codegen_gpu.cpp:165-166, 428-431, 841-859), restricted to
`B` blocks if `B` is positive: the thread `x` begins with the site `b + x`, and with restricted blocks goes on in steps of `T * B`. The list of pairs
of the thread and the site. -/
def rngLoop (B : ℤ) (T b e : ℕ) : List (ℕ × ℕ) :=
  let nb := (e - b + T - 1) / T
  if 0 < B then
    let blocks := if (nb : ℤ) > B then B.toNat else nb
    (List.range (blocks * T)).flatMap fun x => (((List.range (e - b)).map fun j => x + b + j * (T * B.toNat)).filter (· < e)).map fun s => (x, s)
  else ((List.range (nb * T)).filter fun x => x + b < e).map fun x => (x, x + b)

/-- The random numbers drawn in a loop: the generator of every thread is read (hila_gpu.cpp:365-381); the result is `none` if it is outside of the
memory or has not been set. -/
def runRngLoop (B : ℤ) (T b e : ℕ) (m : RngMem) : Option (List (ℕ × (ℕ × ℕ))) :=
  (rngLoop B T b e).mapM fun p => (m.bind fun l => (l[p.1]?).bind id).map fun g => (p.2, g)

/-- The 53-bit number of `hila::random()` in a kernel (hila_gpu.cpp:380-382) from two 32-bit numbers. -/
def gpuRandomBits (u1 u2 : ℕ) : ℕ := u1 ^^^ ((u2 <<< (53 - 32)) % 2 ^ 64)

end Hila
