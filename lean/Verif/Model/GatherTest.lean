import Verif.Model.Coord

/-!
# The start-up test of the gathers (plumbing/test_gathers.cpp)

Every program runs this test when its lattice is set up: `f[X+d]` and `f[X-d]` are compared with the
coordinates they should return, the differences are summed over the lattice and the square of the sum is
compared with zero. Machine integers are 32 bits wide; what an operation gives whose exact result does not
fit is a parameter.
-/

namespace Hila

/-- The sites of a lattice with extents `L` (lattice.size(), lattice.h). -/
abbrev GSite {n : ℕ} (L : Fin n → ℕ) := (i : Fin n) → Fin (L i)

/-- `X.coordinates()`. -/
def GSite.cv {n : ℕ} {L : Fin n → ℕ} (x : GSite L) : CV n := fun i => ((x i).val : ℤ)

/-- The operations under test: the value which a loop over the sites of a parity finds at `f[X+d]`
(`up`) and `f[X-d]` (`down`) for a field with the given contents. They are arbitrary functions; halo
exchange and neighbour tables are modelled elsewhere (`Model/Gather`, `Model/HaloState`). -/
structure GatherOps {n : ℕ} (L : Fin n → ℕ) where
  up : Parity → Fin n → (GSite L → CV n) → GSite L → CV n
  down : Parity → Fin n → (GSite L → CV n) → GSite L → CV n

/-- A 32-bit `int` operation by the C++ standard: a result out of range is undefined behaviour (`none`). -/
def intStd (z : ℤ) : Option ℤ := if -2147483648 ≤ z ∧ z < 2147483648 then some z else none

/-- The same on the usual hardware: the result is taken modulo 2^32. -/
def intWrap (z : ℤ) : Option ℤ := some (Int.bmod z 4294967296)

/-- `::abs(int)` (stdlib, used by matrix.h:1147-1153). -/
def absInt (rd : ℤ → Option ℤ) (z : ℤ) : Option ℤ := if z < 0 then rd (-z) else some z

/-- One component of `dif += abs(a - b)` (test_gathers.cpp:32-33). -/
def addAbs (rd : ℤ → Option ℤ) (acc a b : ℤ) : Option ℤ :=
  (rd (a - b)).bind fun t => (absInt rd t).bind fun u => rd (acc + u)

/-- The sum of one component on a rank which visits the sites `xs`; the reduction variable starts with 0. -/
def rankDif {n : ℕ} {L : Fin n → ℕ} (rd : ℤ → Option ℤ) (a b : GSite L → ℤ) (xs : List (GSite L)) :
    Option ℤ :=
  xs.foldlM (fun acc x => addAbs rd acc (a x) (b x)) 0

/-- Adding up the sums of the ranks, after rank 0 has added the old value of the variable (code generated
at hilapp/src/codegen.cpp:579-600, `hila_reduce_sums`). -/
def addRanks (rd : ℤ → Option ℤ) (old : ℤ) : List ℤ → Option ℤ
  | [] => some old
  | s :: ss => (rd (s + old)).bind fun r => ss.foldlM (fun acc y => rd (acc + y)) r

/-- One component of a reduction over all ranks; `ranks` lists the sites which each rank visits. -/
def reduceDif {n : ℕ} {L : Fin n → ℕ} (rd : ℤ → Option ℤ) (old : ℤ) (ranks : List (List (GSite L)))
    (a b : GSite L → ℤ) : Option ℤ :=
  (ranks.mapM (rankDif rd a b)).bind (addRanks rd old)

/-- `f1[X] = X.coordinates()` (test_gathers.cpp:27). -/
def gatherF1 {n : ℕ} (L : Fin n → ℕ) : GSite L → CV n := fun x => x.cv

/-- `f2[X] = (X.coordinates() + d).mod(lattice.size())` (test_gathers.cpp:28). Extents are smaller than
2^31, so that the addition does not overflow. -/
def gatherF2 {n : ℕ} (L : Fin n → ℕ) (d : Fin n) : GSite L → CV n :=
  fun x => (x.cv.addDir (upDir d)).mod fun i => (L i : ℤ)

/-- `dif1` after a loop (test_gathers.cpp:31-32, 49-50): the list of its components. -/
def difUp {n : ℕ} {L : Fin n → ℕ} (rd : ℤ → Option ℤ) (ops : GatherOps L) (ranks : List (List (GSite L)))
    (par : Parity) (d : Fin n) (old : List ℤ) : Option (List ℤ) :=
  (List.finRange n).mapM fun i : Fin n => reduceDif rd (old.getD i.val 0) ranks
    (fun x => ops.up par d (gatherF1 L) x i) (fun x => gatherF2 L d x i)

/-- `dif2` after a loop (test_gathers.cpp:33, 51). -/
def difDown {n : ℕ} {L : Fin n → ℕ} (rd : ℤ → Option ℤ) (ops : GatherOps L) (ranks : List (List (GSite L)))
    (par : Parity) (d : Fin n) (old : List ℤ) : Option (List ℤ) :=
  (List.finRange n).mapM fun i : Fin n => reduceDif rd (old.getD i.val 0) ranks
    (fun x => gatherF1 L x i) (fun x => ops.down par d (gatherF2 L d) x i)

/-- `squarenorm()` of a vector of `int` (matrix.h:1233-1239, real_var_ops.h:50-53): the squares and their
sum are of type `int`. -/
def sqNormInt (rd : ℤ → Option ℤ) (v : List ℤ) : Option ℤ :=
  v.foldlM (fun acc c => (rd (c * c)).bind fun q => rd (acc + q)) 0

/-- `if (dif.squarenorm() != 0) terminate` (test_gathers.cpp:36-46, 54-64): `true` if the run goes on. -/
def difOk (rd : ℤ → Option ℤ) (v : List ℤ) : Option Bool := (sqNormInt rd v).map fun q => decide (q = 0)

/-- The sites of a parity on each rank. -/
def evenRanks {n : ℕ} {L : Fin n → ℕ} (ranks : List (List (GSite L))) : List (List (GSite L)) :=
  ranks.map fun xs => xs.filter fun x => decide (x.cv.parity = .even)

/-- The two comparisons after a loop; the values are used again by the next loop. -/
def gatherStage {n : ℕ} {L : Fin n → ℕ} (rd : ℤ → Option ℤ) (ops : GatherOps L) (ranks : List (List (GSite L)))
    (par : Parity) (d : Fin n) (old1 old2 : List ℤ) : Option (Bool × List ℤ × List ℤ) :=
  (difUp rd ops ranks par d old1).bind fun d1 => (difDown rd ops ranks par d old2).bind fun d2 =>
    (difOk rd d1).bind fun ok1 =>
      if ok1 then (difOk rd d2).bind fun ok2 => some (ok2, d1, d2) else some (false, d1, d2)

/-- The test of one direction (test_gathers.cpp:21-89): `some true` if no error is found, `some false` if
the run is terminated. `evenFirst` says whether `EVEN_SITES_FIRST` is defined. The part under `#if 0` is
left out. -/
def gatherDir {n : ℕ} {L : Fin n → ℕ} (rd : ℤ → Option ℤ) (evenFirst : Bool) (ops : GatherOps L)
    (ranks : List (List (GSite L))) (d : Fin n) : Option Bool :=
  (gatherStage rd ops ranks .all d [] []).bind fun r =>
    if r.1 then
      if evenFirst then (gatherStage rd ops (evenRanks ranks) .even d r.2.1 r.2.2).map (·.1) else some true
    else some false

/-- `gather_test` (test_gathers.cpp:7-90). The count of the sites is 64 bits wide and exact. -/
def gatherTest {n : ℕ} {L : Fin n → ℕ} (rd : ℤ → Option ℤ) (evenFirst : Bool) (ops : GatherOps L)
    (ranks : List (List (GSite L))) : Option Bool :=
  if (ranks.map List.length).sum ≠ ∏ i, L i then some false
  else (List.finRange n).foldlM (fun ok d => if ok then gatherDir rd evenFirst ops ranks d else some false) true

end Hila
