import Verif.Model.Gather
import Verif.Model.Shift

/-!
# Boundary conditions of a field

Models the boundary conditions of `/repo/libraries/plumbing` on the CPU (VANILLA) back end with `SPECIAL_BOUNDARY_CONDITIONS`:
`init_special_boundaries`, `get_neighbour_array`, `setup_special_boundary_array` (lattice.cpp:917-1025), `is_on_edge` (lattice.h:134-137),
`set_boundary_condition` (field.h:726-765), the signs in `gather_comm_elements` and `set_local_boundary_elements` (field_comm.h:15-40 and
113-125, backend_cpu/field_storage_backend.h:60-131) and their use in `start_communication` / `wait_gather` (field_comm.h:487-591, 631-695).
-/

namespace Hila

/-- `hila::bc` (lattice.h:31). -/
inductive Bc | periodic | antiperiodic | dirichlet
  deriving DecidableEq

/-- `set_boundary_condition(dir, bc)` (field.h:747-748): the table `boundary_condition`. The neighbour arrays that it also sets are the
function `fieldNeighb` of the table. -/
def setBoundaryCondition {n : ℕ} (bcs : Dir n → Bc) (dir : Dir n) (bc : Bc) : Dir n → Bc :=
  Function.update (Function.update bcs dir bc) (oppDir dir) bc

/-- `mynode.is_on_edge(d)` (lattice.h:134-137) on rank `r`. -/
def isOnEdge {n : ℕ} (lay : Layout n) (r : ℕ) (d : Dir n) : Bool :=
  let ni := lay.nodeinfo r
  (isUp d && ni.min (axis d) + ni.size (axis d) == lay.L (axis d)) || (!isUp d && ni.min (axis d) == 0)

/-- The entries `is_needed`, `n_even`, `n_odd`, `n_total` of `special_boundaries[d]` (lattice.h:252-259). -/
structure SpecCount where
  isNeeded : Bool
  nEven : ℕ
  nOdd : ℕ
  nTotal : ℕ

/-- One direction of `init_special_boundaries` (lattice.cpp:918-949). -/
def specCount {n : ℕ} (lay : Layout n) (r : ℕ) (d : Dir n) : SpecCount :=
  let ni := lay.nodeinfo r
  let od := oppDir d
  let coord : ℤ := -1
  let coord := if isUp d ∧ ni.min (axis d) + ni.size (axis d) = lay.L (axis d) then (lay.L (axis d) : ℤ) - 1 else coord
  let coord := if isUp od ∧ ni.min (axis od) = 0 then 0 else coord
  if coord ≥ 0 ∧ lay.ndiv (axis d) = 1 then
    (List.range ni.volume).foldl (fun s i =>
      if ((ni.coord i (axis d) : ℕ) : ℤ) = coord then
        { s with nTotal := s.nTotal + 1
                 nEven := if (ni.coord i).parity = .even then s.nEven + 1 else s.nEven
                 nOdd := if (ni.coord i).parity = .even then s.nOdd else s.nOdd + 1 }
      else s) ⟨true, 0, 0, 0⟩
  else ⟨false, 0, 0, 0⟩

/-- `mynode.field_alloc_size` at the start of direction number `k` of `init_special_boundaries` (lattice.cpp:936, 947). For a direction that
needs special treatment this is `special_boundaries[d].offset`. -/
def specOffset {n : ℕ} (lay : Layout n) (r : ℕ) : ℕ → ℕ
  | 0 => fieldAllocSize lay r
  | k + 1 => if h : k < 2 * n then specOffset lay r k + (specCount lay r ⟨k, h⟩).nTotal else specOffset lay r k

/-- `mynode.field_alloc_size` after `init_special_boundaries`. -/
def fieldAllocSizeBc {n : ℕ} (lay : Layout n) (r : ℕ) : ℕ := specOffset lay r (2 * n)

/-- Variables of `setup_special_boundary_array` (lattice.cpp:1002-1022). -/
structure SpecArrays where
  neighbours : ℕ → ℕ
  moveIndex : ℕ → ℕ
  offs : ℕ
  k : ℕ

/-- `setup_special_boundary_array(d)` (lattice.cpp:996-1025); the fresh arrays are arbitrary, 0 here. The assertion at 1024 is a theorem
(`C68_slots`). -/
def specArrays {n : ℕ} (lay : Layout n) (r : ℕ) (d : Dir n) : SpecArrays :=
  let ni := lay.nodeinfo r
  let coord : ℕ := if isUp d then lay.L (axis d) - 1 else 0
  (List.range ni.volume).foldl (fun s i =>
    if ni.coord i (axis d) ≠ coord then { s with neighbours := Function.update s.neighbours i (neighb lay r d i) }
    else
      { neighbours := Function.update s.neighbours i s.offs
        moveIndex := Function.update s.moveIndex s.k (neighb lay r d i)
        offs := s.offs + 1
        k := s.k + 1 }) ⟨fun _ => 0, fun _ => 0, specOffset lay r d.val, 0⟩

/-- `fs->neighbours[d]` (field.h:750-751 with `get_neighbour_array`, lattice.cpp:972-990). -/
def fieldNeighb {n : ℕ} (lay : Layout n) (bcs : Dir n → Bc) (r : ℕ) (d : Dir n) : ℕ → ℕ :=
  if (specCount lay r d).isNeeded = false ∨ bcs d = .periodic then neighb lay r d else (specArrays lay r d).neighbours

/-- `boundary_need_to_communicate(dir)` (field.h:710-719, lattice.h:39-45). -/
def needComm {n : ℕ} (lay : Layout n) (bcs : Dir n → Bc) (r : ℕ) (d : Dir n) : Bool :=
  decide (bcs d ≠ .dirichlet) || !isOnEdge lay r d

/-- The message of rank `s` to rank `r` for direction `d` (field_comm.h:545-577): the sign is chosen by the sender (field_comm.h:27-30). -/
def sentMessageBc {n : ℕ} {V : Type} [Neg V] (lay : Layout n) (bcs : Dir n → Bc) (mem : ℕ → Mem V) (d : Dir n) (par : Parity) (s r : ℕ) :
    Option (List V) :=
  let t := toNode lay s d
  if t.rank ≠ s ∧ needComm lay bcs s (oppDir d) ∧ t.rank = r then
    let antiperiodic := bcs d = .antiperiodic ∧ isOnEdge lay s (oppDir d) = true
    some ((t.getSitelist par).map fun i => if antiperiodic then -(mem s i) else mem s i)
  else none

/-- `set_local_boundary_elements(dir, par)` (field_comm.h:113-125, backend_cpu/field_storage_backend.h:86-112) with the loop of
`gather_elements_negated`. -/
def setLocalBoundary {n : ℕ} {V : Type} [Neg V] (lay : Layout n) (bcs : Dir n → Bc) (r : ℕ) (d : Dir n) (par : Parity) (m : Mem V) : Mem V :=
  if bcs d = .antiperiodic ∧ isOnEdge lay r d = true then
    let sb := specCount lay r d
    let start := if par = .odd then sb.nEven else 0
    let cnt := if par = .odd then sb.nOdd else if par = .even then sb.nEven else sb.nTotal
    let idx := (specArrays lay r d).moveIndex
    (List.range cnt).foldl (fun m j => Function.update m (specOffset lay r d.val + start + j) (-(m (idx (start + j))))) m
  else m

/-- Memory of rank `r` after the gather of (`d`, `par`) has been waited for. `none`: a receive without a matching message, or a message of
the wrong length. The message arrives after the local copy; the two touch different elements (`C68_slots`). -/
def gatherResultBc {n : ℕ} {V : Type} [Neg V] (lay : Layout n) (bcs : Dir n → Bc) (mem : ℕ → Mem V) (d : Dir n) (par : Parity) (r : ℕ) :
    Option (Mem V) :=
  let f := fromNode lay r d
  let m := setLocalBoundary lay bcs r d par (mem r)
  if f.rank ≠ r ∧ needComm lay bcs r d then
    match sentMessageBc lay bcs mem d par f.rank r with
    | some l => if l.length = f.nSites par then some (placeAt m (f.offset par) l) else none
    | none => none
  else some m

/-- The value of `f[X + d]` at the site `c` for a field with boundary conditions, as C68 establishes it for periodic and antiperiodic
directions. -/
def readBc {n : ℕ} {V : Type} [Neg V] (lay : Layout n) (bcs : Dir n → Bc) (f : Site n → V) (d : Dir n) (c : Site n) : V :=
  if bcs d = .antiperiodic ∧ c (axis d) = (if isUp d then lay.L (axis d) - 1 else 0) then -f (lay.neighbour c d) else f (lay.neighbour c d)

/-- `Field::shift(v, res, par)` (field_comm.h:178-266) for a field with boundary conditions. The result `res` and the buffer `r1` are
other fields. `r1` is newly declared and periodic; `res` is taken to be periodic too, as in `f.shift(v)`. So only the first step, which
reads `*this`, sees the boundary conditions; the others are those of `Model/Shift`. -/
def shiftBc {n : ℕ} {V : Type} [Neg V] (lay : Layout n) (bcs : Dir n → Bc) (ready : Dir n → Bool) (f : Site n → V) (v : CV n)
    (res : Site n → Option V) (par : Parity) : Option (Site n → Option V) :=
  let len := v.normL1
  if len = 0 then some (fun c => if par.visits c.parity then some (f c) else res c)
  else
    let parS := if len.tmod 2 = 0 then oppParity par else par
    (chooseMove ready v).map fun mdir =>
      let first := fun (t : Site n → Option V) (c : Site n) => if parS.visits c.parity then some (readBc lay bcs f mdir c) else t c
      if len = 1 then first res
      else
        let toRes := decide (len.tmod 2 = 0)
        let s : ShiftState n V :=
          { res := if toRes then res else first res
            r1 := if toRes then first (fun _ => none) else fun _ => none
            toRes := toRes
            par := oppParity parS
            rem := v.subDir mdir }
        ((List.finRange n).foldl (shiftAxis lay) s).res

end Hila
