import Verif.Model.Gather

/-!
# Storage order of sites when communication overlaps with loops

Models the parts of `/repo/libraries/plumbing/lattice.cpp` and `lattice.h` that are compiled with
GPU_OVERLAP_COMM (and EVEN_SITES_FIRST, without which `loop_ranges` is not declared and nothing
compiles). The sites of a rank are stored in four groups: inner even, inner odd, boundary even, boundary
odd. Loops are done in two ranges of slots; the first is started before the halo has arrived. `unsigned`
is not bounded, as in `Model/Layout`.
-/

namespace Hila

/-- `is_boundary_site` (lattice.cpp:449-458): the loop that stops at the first direction in which the
site is at one of the two faces. -/
def isBoundarySite {n : ℕ} (min size cv : Site n) : Bool :=
  (List.finRange n).any fun d => cv d == min d || cv d == min d + size d - 1

/-- The four counters of `construct_index_map` (lattice.cpp:477). -/
structure OvCount where
  innerEven : ℕ
  innerOdd : ℕ
  boundaryEven : ℕ
  boundaryOdd : ℕ

/-- The counter of the group that site `l` belongs to is advanced; the result is its old value
(lattice.cpp:482-492 for counting, 515-526 for filling). -/
def OvCount.next {n : ℕ} (ni : NodeInfo n) (s : OvCount) (l : Site n) : ℕ × OvCount :=
  let boundary := isBoundarySite ni.min ni.size l
  if l.parity = .even then
    if boundary then (s.boundaryEven, { s with boundaryEven := s.boundaryEven + 1 })
    else (s.innerEven, { s with innerEven := s.innerEven + 1 })
  else
    if boundary then (s.boundaryOdd, { s with boundaryOdd := s.boundaryOdd + 1 })
    else (s.innerOdd, { s with innerOdd := s.innerOdd + 1 })

/-- The first `k` turns of the counting loop (lattice.cpp:475-495): counters and running coordinate. -/
def NodeInfo.ovCount {n : ℕ} (ni : NodeInfo n) : ℕ → OvCount × Site n
  | 0 => (⟨0, 0, 0, 0⟩, ni.min)
  | k + 1 =>
    let (s, l) := ni.ovCount k
    ((OvCount.next ni s l).2, advance ni.min ni.size l)

/-- `inner_start_odd` (lattice.cpp:497). -/
def NodeInfo.innerStartOdd {n : ℕ} (ni : NodeInfo n) : ℕ := (ni.ovCount ni.volume).1.innerEven

/-- `boundary_start_even` (lattice.cpp:498). -/
def NodeInfo.boundaryStartEven {n : ℕ} (ni : NodeInfo n) : ℕ :=
  ni.innerStartOdd + (ni.ovCount ni.volume).1.innerOdd

/-- `boundary_start_odd` (lattice.cpp:499). -/
def NodeInfo.boundaryStartOdd {n : ℕ} (ni : NodeInfo n) : ℕ :=
  ni.boundaryStartEven + (ni.ovCount ni.volume).1.boundaryEven

/-- The first `k` turns of the filling loop (lattice.cpp:503-535): `map_site_index`, the counters, and the
running coordinate. `none` is an element outside of the vector, which was resized to `volume`
(line 469; elements start at 0). -/
def NodeInfo.ovFill {n : ℕ} (ni : NodeInfo n) : ℕ → (ℕ → Option ℕ) × OvCount × Site n
  | 0 => (fun i => if i < ni.volume then some 0 else none,
      ⟨0, ni.innerStartOdd, ni.boundaryStartEven, ni.boundaryStartOdd⟩, ni.min)
  | k + 1 =>
    let (m, s, l) := ni.ovFill k
    (Function.update m k (some (OvCount.next ni s l).1), (OvCount.next ni s l).2,
      advance ni.min ni.size l)

/-- `assert(boundary_odd == volume)` (lattice.cpp:538). -/
def NodeInfo.ovAssert {n : ℕ} (ni : NodeInfo n) : Prop :=
  (ni.ovFill ni.volume).2.1.boundaryOdd = ni.volume

/-- `site_index(loc)` (lattice.cpp:189-192). `none`: outside of the vector. -/
def NodeInfo.ovSiteIndex {n : ℕ} (ni : NodeInfo n) (l : Site n) : Option ℕ :=
  (ni.ovFill ni.volume).1 (ni.logicalIndex l)

/-- The first `k` turns of the loop that fills `coordinates` (lattice.cpp:574-579). A write outside of
the vector is left out; `C75_slots` shows that there is none. -/
def NodeInfo.ovFillCoordinates {n : ℕ} (ni : NodeInfo n) : ℕ → (ℕ → Option (Site n)) × Site n
  | 0 => (fun _ => none, ni.min)
  | k + 1 =>
    let (tab, l) := ni.ovFillCoordinates k
    ((match ni.ovSiteIndex l with
      | some i => Function.update tab i (some l)
      | none => tab), advance ni.min ni.size l)

/-- `coordinates(idx)` (lattice.h:328-330); `none`: no site was stored there. -/
def NodeInfo.ovCoordinates {n : ℕ} (ni : NodeInfo n) (idx : ℕ) : Option (Site n) :=
  (ni.ovFillCoordinates ni.volume).1 idx

/-- `loop_ranges(par, gather_on, ranges)` (lattice.cpp:421-447): the pairs `(min, max)`; their number is
the returned value. `Parity::none` takes the last branch, like `all`. -/
def NodeInfo.loopRanges {n : ℕ} (ni : NodeInfo n) (par : Parity) (gatherOn : Bool) : List (ℕ × ℕ) :=
  if par = .all ∧ gatherOn = false then [(0, ni.volume)]
  else if par = .even then
    [(0, ni.innerStartOdd), (ni.boundaryStartEven, ni.boundaryStartOdd)]
  else if par = .odd then
    [(ni.innerStartOdd, ni.boundaryStartEven), (ni.boundaryStartOdd, ni.volume)]
  else [(0, ni.boundaryStartEven), (ni.boundaryStartEven, ni.volume)]

/-- Slots whose neighbour in direction `d` is on another rank and whose sites have parity `par`, in
the order of the loop over `i` (lattice.cpp:678-701): the `k`-th of them reads the `k`-th element of
the halo of that parity. The two passes of `create_std_gathers` are modelled step by step in
`Model/Gather`; here only their result is. -/
def Layout.ovFrom {n : ℕ} (lay : Layout n) (r : ℕ) (d : Dir n) (par : Parity) : List ℕ :=
  (List.range (lay.nodeinfo r).volume).filter fun i =>
    match (lay.nodeinfo r).ovCoordinates i with
    | some l => !(lay.nodeinfo r).isOnNode (lay.neighbour l d) && decide (l.parity = par)
    | none => false

/-- `to_node.sitelist` for the opposite direction, the part for receivers of parity `par`
(lattice.cpp:695-700): slots whose neighbour in direction `d` is on another rank and has parity
`par`. -/
def Layout.ovTo {n : ℕ} (lay : Layout n) (r : ℕ) (d : Dir n) (par : Parity) : List ℕ :=
  (List.range (lay.nodeinfo r).volume).filter fun i =>
    match (lay.nodeinfo r).ovCoordinates i with
    | some l => !(lay.nodeinfo r).isOnNode (lay.neighbour l d) &&
        decide ((lay.neighbour l d).parity = par)
    | none => false

end Hila
