import Verif.Model.Reduction
import Verif.Model.OverlapLayout

/-!
# Minimum and maximum of a field on graphics processors

Models `Field::gpu_minmax` (`/repo/libraries/plumbing/backend_gpu/gpu_minmax.h`) and the part of
`Field::minmax` that combines the ranks (`reduction.h` 321-394).

`DeviceReduce::ArgMin` and `ArgMax` of the libraries cub and hipcub are taken from their documentation: the
key is the smallest position of the best value, and for an array without elements the key is 1 and the value
is the largest (for `ArgMax` the lowest) finite number of the type. Values are from a linear order, NaN is
not modelled. Errors of the allocations (`GPU_CHECK`) are not modelled.
-/

namespace Hila

/-- `gpu_minmax_argreduce_range(is_min, data_in, num_items)` (gpu_minmax.h:28-66): key and value. `data i` is
`data_in[i]`; `lim` is the value that the library returns for an empty array. The first call of the library
in the source only finds the size of the work space. -/
def argReduceRange {V : Type} [LT V] [DecidableLT V] (isMin : Bool) (lim : V) (data : ℕ → V) (num : ℕ) :
    ℕ × V :=
  if num = 0 then (1, lim) else
    let p := locReduce isMin data (num - 1)
    (p.2, p.1)

/-- The ranges of `gpu_minmax` (gpu_minmax.h:75-77, 99-101): with GPU_OVERLAP_COMM from `loop_ranges`
without a gather, otherwise one range from `loop_begin` to `loop_end`. -/
def NodeInfo.minmaxRanges {n : ℕ} (ni : NodeInfo n) (overlap : Bool) (par : Parity) : List (ℕ × ℕ) :=
  if overlap then ni.loopRanges par false else [(ni.loopBegin par, ni.loopEnd par)]

/-- `coordinates(idx)` with the table of the chosen storage order (lattice.h:328-330). `none` is a position
outside of the table. -/
def NodeInfo.gpuCoordinates {n : ℕ} (ni : NodeInfo n) (overlap : Bool) (idx : ℕ) : Option (Site n) :=
  if idx < ni.volume then if overlap then ni.ovCoordinates idx else ni.coordinates idx else none

/-- Value and slot found by `gpu_minmax` on one rank, from the ranges (gpu_minmax.h:79-96, 103-106): the second
range is taken if its value is strictly better. -/
def gpuRangesBest {V : Type} [LT V] [DecidableLT V] (isMin : Bool) (lim : V) (base : ℕ → V) :
    List (ℕ × ℕ) → V × ℕ
  | [] => (lim, 1)
  | [p] =>
    let x := argReduceRange isMin lim (fun i => base (p.1 + i)) (p.2 - p.1)
    (x.2, x.1 + p.1)
  | p :: q :: _ =>
    let x := argReduceRange isMin lim (fun i => base (p.1 + i)) (p.2 - p.1)
    let y := argReduceRange isMin lim (fun i => base (q.1 + i)) (q.2 - q.1)
    if better isMin y.2 x.2 then (y.2, y.1 + q.1) else (x.2, x.1 + p.1)

/-- `gpu_minmax` on one rank (gpu_minmax.h:68-109). `none`: the coordinates are read outside of their table. -/
def gpuNodeMinmax {n : ℕ} {V : Type} [LT V] [DecidableLT V] (overlap isMin : Bool) (lim : V)
    (ni : NodeInfo n) (par : Parity) (base : ℕ → V) : Option (V × Site n) :=
  let x := gpuRangesBest isMin lim base (ni.minmaxRanges overlap par)
  (ni.gpuCoordinates overlap x.2).map fun c => (x.1, c)

/-- `Field::minmax` with CUDA or HIP (reduction.h:330-394): every rank calls `gpu_minmax`, the best value and its
rank are found by `MPI_MINLOC`/`MPI_MAXLOC`, and that rank sends its location. `mem r` are the field elements
of rank `r`. `none`: some rank reads outside of its table of coordinates. -/
def gpuMinmax {n : ℕ} {V : Type} [LT V] [DecidableLT V] (overlap isMin : Bool) (lim : V)
    (lay : Layout n) (par : Parity) (mem : ℕ → ℕ → V) : Option (V × Site n) :=
  let node := fun r => gpuNodeMinmax overlap isMin lim (lay.nodeinfo r) par (mem r)
  if ∀ r < lay.numNodes, (node r).isSome then
    if lay.numNodes > 1 then
      let p := locReduce isMin
        (fun r => (gpuRangesBest isMin lim (mem r) ((lay.nodeinfo r).minmaxRanges overlap par)).1)
        (lay.numNodes - 1)
      (node p.2).map fun x => (p.1, x.2)
    else node 0
  else none

end Hila
