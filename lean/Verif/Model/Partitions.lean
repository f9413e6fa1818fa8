import Verif.Model.Seed
import Mathlib.Data.Nat.Notation

/-!
# Partitions (plumbing/initialize.cpp, com_mpi.cpp, com_mpi.h)

`-partitions <num> <dirname>` divides the ranks of a run into independent lattices, each with a directory
of its own.
-/

namespace Hila

/-- What `setup_partitions` does on all ranks: it goes on with one lattice, ends the run, has undefined
behaviour, or splits the ranks into the given number of partitions. -/
inductive PartSetup where
  | single
  | ends
  | undef
  | split (number : ℕ)
deriving DecidableEq

/-- The head of `setup_partitions` (initialize.cpp:422-447). `arg` is the argument of `-partitions`, a
`long`, or `none` without the flag; `nodes` is `hila::number_of_nodes()`. `set_number` takes an `unsigned`
(com_mpi.h:23), so that the number is taken modulo 2^32; the remainder of a division by zero is undefined. -/
def setupPartitions (arg : Option ℤ) (nodes : ℕ) : PartSetup :=
  match arg with
  | none => .single
  | some l =>
    if l ≤ 0 then .ends
    else
      let number := (l % 4294967296).toNat
      if number = 1 then .single
      else if number = 0 then .undef
      else if nodes % number ≠ 0 then .ends
      else .split number

/-- The partition of a rank (initialize.cpp:454-455): `(myrank * number) / nodes`; the product is
`unsigned`. -/
def myPartition (number nodes rank : ℕ) : ℕ := rank * number % 4294967296 / nodes

/-- `MPI_Comm_split(MPI_COMM_WORLD, color, 0, …)` (com_mpi.cpp:337): the ranks with the color of `rank`, in
the order of their old ranks. -/
def commMembers (color : ℕ → ℕ) (nodes rank : ℕ) : List ℕ :=
  (List.range nodes).filter fun r => color r = color rank

/-- `mynode.rank` and `nodes.number` after `split_into_partitions` (com_mpi.cpp:330-345): the position and
the number of members. -/
def splitRank (color : ℕ → ℕ) (nodes rank : ℕ) : ℕ × ℕ :=
  ((commMembers color nodes rank).idxOf rank, (commMembers color nodes rank).length)

/-- The state of a rank after `setup_partitions` has split the ranks: partition, rank and number of ranks.
With `-check` the ranks are not split (initialize.cpp:457, com_mpi.cpp:332-333). -/
def afterSetup (check : Bool) (number nodes rank : ℕ) : ℕ × ℕ × ℕ :=
  (myPartition number nodes rank,
    if check then (rank, nodes) else splitRank (myPartition number nodes) nodes rank)

/-- The directory of a partition (initialize.cpp:461). -/
def partDir (dir : List Char) (part : ℕ) : List Char := dir ++ Nat.toDigits 10 part

/-- The seed of the generator of a rank after the split (random.cpp:85-151, `Model/Seed`). -/
def partSeed (number nodes rank : ℕ) (seed : BitVec 64) : BitVec 64 :=
  let s := afterSetup false number nodes rank
  generatorSeed s.2.2 number ⟨s.2.1, s.1⟩ seed

/-- The seed from the clock (random.cpp:100-107). -/
def clockSeed (sec nsec : ℕ) : BitVec 64 := (BitVec.ofNat 64 sec <<< 30) ^^^ BitVec.ofNat 64 nsec

end Hila
