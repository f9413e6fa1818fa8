import Verif.Model.Coord
import Mathlib.Data.Fin.Tuple.Basic
import Mathlib.Data.List.FinRange

/-!
# Distribution of the lattice over ranks and storage order of sites

Models `/repo/libraries/plumbing/lattice.cpp` (standard layout: no SUBNODE_LAYOUT, no
GPU_OVERLAP_COMM, EVEN_SITES_FIRST on unless said otherwise) and the corresponding parts of
`lattice.h`. `n` is NDIM. The 32-bit overflow checks (`report_too_large_node`) are not modelled:
sizes are unbounded.
-/

namespace Hila

open BigOperators

/-- A lattice site or a size vector: a coordinate vector with non-negative entries. -/
abbrev Site (n : ℕ) := Fin n → ℕ

/-- A site as a general coordinate vector. -/
def Site.toCV {n : ℕ} (c : Site n) : CV n := fun d => (c d : ℤ)

/-- `loc.parity()` for a site (coordinates.h:423-431). -/
def Site.parity {n : ℕ} (c : Site n) : Parity := CV.parity (Site.toCV c)

/-- What `setup_layout` leaves behind: the lattice size `l_size`, the number of divisions
`nodes.n_divisions`, and the logical-to-MPI rank map `nodes.remap` with its inverse
`nodes.inverse_remap` (lattice.h: struct allnodes). -/
structure Layout (n : ℕ) where
  L : Site n
  ndiv : Site n
  remap : ℕ → ℕ
  invRemap : ℕ → ℕ

/-- `hila::number_of_nodes()`: product of the divisions. -/
def Layout.numNodes {n : ℕ} (lay : Layout n) : ℕ := ∏ d, lay.ndiv d

/-- What the code relies on after a successful `setup_layout`: non-zero sizes and divisions, and
a rank map that is a bijection of `0 .. N-1` (see C37). Divisions need not divide the size. -/
structure Layout.WF {n : ℕ} (lay : Layout n) : Prop where
  L_pos : ∀ d, 0 < lay.L d
  ndiv_pos : ∀ d, 0 < lay.ndiv d
  remap_lt : ∀ i, i < lay.numNodes → lay.remap i < lay.numNodes
  inv_lt : ∀ i, i < lay.numNodes → lay.invRemap i < lay.numNodes
  remap_inv : ∀ i, i < lay.numNodes → lay.remap (lay.invRemap i) = i
  inv_remap : ∀ i, i < lay.numNodes → lay.invRemap (lay.remap i) = i

/-- `c` is a site of the lattice. -/
def Layout.InLattice {n : ℕ} (lay : Layout n) (c : Site n) : Prop := ∀ d, c d < lay.L d

/-- Node number along one direction, `(loc*n_divisions)/l_size` (lattice.cpp:106, 109). -/
def Layout.nodeCoord {n : ℕ} (lay : Layout n) (c : Site n) (d : Fin n) : ℕ :=
  (c d * lay.ndiv d) / lay.L d

/-- `node_rank` (lattice.cpp:104-118): Horner evaluation from the last direction down to the
first, then `remap`. The diagnostic printout at 113-114 is omitted. -/
def Layout.nodeRank {n : ℕ} (lay : Layout n) (c : Site n) : ℕ :=
  lay.remap ((List.finRange n).foldr (fun dir i => i * lay.ndiv dir + lay.nodeCoord c dir) 0)

/-- One iteration `i` of the loop at lattice.cpp:133-138. The array is written at consecutive
positions `0, 1, ...`, so it is modelled as a list that grows at the end; the `while` writes `i`
until the last written position is `(i*n_divisions)/l_size`. -/
def divisorsStep (L nd : ℕ) (acc : List ℕ) (i : ℕ) : List ℕ :=
  acc ++ List.replicate ((i * nd) / L + 1 - acc.length) i

/-- `setup_node_divisors` for one direction (lattice.cpp:125-138), `i = 0 .. l_size` inclusive.
The vector was resized to `n_divisions + 1`; `divisors_length` shows that exactly that many
entries are written. -/
def divisors (L nd : ℕ) : List ℕ := (List.range (L + 1)).foldl (divisorsStep L nd) []

/-- Splitting an index with `% size` and `/ size`, direction 0 first: the loop in `nodeinfo`
(lattice.cpp:330-332) and `global_coordinates` (lattice.h:389-396). -/
def digits : {n : ℕ} → (Fin n → ℕ) → ℕ → (Fin n → ℕ)
  | 0, _, _ => fun d => d.elim0
  | _ + 1, s, i => Fin.cons (i % s 0) (digits (Fin.tail s) (i / s 0))

/-- `struct node_info` (lattice.h): coordinate range and site counts of one rank. -/
structure NodeInfo (n : ℕ) where
  min : Site n
  size : Site n
  evensites : ℕ
  oddsites : ℕ

/-- Site counts (lattice.cpp:343-354): equal for an even volume; for an odd volume the parity of
`min` gets the additional site. -/
def NodeInfo.ofBox {n : ℕ} (min size : Site n) : NodeInfo n :=
  let vol := ∏ d, size d
  if vol % 2 = 0 then ⟨min, size, vol / 2, vol / 2⟩
  else if min.parity = .even then ⟨min, size, vol / 2 + 1, vol / 2⟩
  else ⟨min, size, vol / 2, vol / 2 + 1⟩

/-- `nodeinfo(nodeid)` (lattice.cpp:322-357). `divisors[d].at(k)` throws out of range; the
theorem `C02_box_valid` shows both look-ups are in range for every rank, so `getD` never
uses its default. -/
def Layout.nodeinfo {n : ℕ} (lay : Layout n) (r : ℕ) : NodeInfo n :=
  let k := digits lay.ndiv (lay.invRemap r)
  let div := fun d => divisors (lay.L d) (lay.ndiv d)
  let min := fun d => (div d).getD (k d) 0
  NodeInfo.ofBox min (fun d => (div d).getD (k d + 1) 0 - min d)

/-- `mynode.volume = evensites + oddsites` (lattice.cpp:554). -/
def NodeInfo.volume {n : ℕ} (ni : NodeInfo n) : ℕ := ni.evensites + ni.oddsites

/-- `is_on_mynode` (lattice.cpp:149-158). -/
def NodeInfo.isOnNode {n : ℕ} (ni : NodeInfo n) (c : Site n) : Bool :=
  (List.finRange n).all fun d =>
    !decide ((c d : ℤ) - ni.min d < 0 ∨ (c d : ℤ) - ni.min d ≥ ni.size d)

/-- `size_factor[d]` (lattice.cpp:560-564): product of the sizes of the lower directions. -/
def sizeFactor {n : ℕ} (size : Site n) (d : Fin n) : ℕ :=
  ∏ j : Fin d.val, size ⟨j.val, by omega⟩

/-- `get_logical_index` (lattice.cpp:394-401). Requires `l ≥ min`; the cast of a negative
difference to `unsigned` is not modelled, theorems assume the site is on the node. -/
def NodeInfo.logicalIndex {n : ℕ} (ni : NodeInfo n) (l : Site n) : ℕ :=
  ∑ d, (l d - ni.min d) * sizeFactor ni.size d

/-- `site_index(loc)` with EVEN_SITES_FIRST (lattice.cpp:171-185). -/
def NodeInfo.siteIndex {n : ℕ} (ni : NodeInfo n) (l : Site n) : ℕ :=
  let i := ni.logicalIndex l
  if l.parity = .even then i / 2 else i / 2 + ni.evensites

/-- `advance_local_coordinate` (lattice.cpp:409-415): the `foralldir` loop with early return,
written as recursion on the direction. -/
def advance : {n : ℕ} → (min size l : Fin n → ℕ) → (Fin n → ℕ)
  | 0, _, _, l => l
  | _ + 1, min, size, l =>
    if l 0 + 1 < min 0 + size 0 then Fin.cons (l 0 + 1) (Fin.tail l)
    else Fin.cons (min 0) (advance (Fin.tail min) (Fin.tail size) (Fin.tail l))

/-- The first `k` iterations of the loop that fills `mynode.coordinates`
(lattice.cpp:574-579): the table (unset entries are `none`) and the running coordinate. -/
def NodeInfo.fillCoordinates {n : ℕ} (ni : NodeInfo n) : ℕ → (ℕ → Option (Site n)) × Site n
  | 0 => (fun _ => none, ni.min)
  | k + 1 =>
    let (tab, l) := ni.fillCoordinates k
    (Function.update tab (ni.siteIndex l) (some l), advance ni.min ni.size l)

/-- `coordinates(idx)` (lattice.h:328-330): look up the table; `none` would be an entry never
written. -/
def NodeInfo.coordinates {n : ℕ} (ni : NodeInfo n) (idx : ℕ) : Option (Site n) :=
  (ni.fillCoordinates ni.volume).1 idx

/-- `loop_begin(P)` (lattice.h:312-317). -/
def NodeInfo.loopBegin {n : ℕ} (ni : NodeInfo n) (P : Parity) : ℕ :=
  if P ≠ .odd then 0 else ni.evensites

/-- `loop_end(P)` (lattice.h:319-324). -/
def NodeInfo.loopEnd {n : ℕ} (ni : NodeInfo n) (P : Parity) : ℕ :=
  if P = .even then ni.evensites else ni.volume

/-- `coordinates(idx)` without EVEN_SITES_FIRST (lattice.h:355-368): division only, the last
component takes what is left (no `%`). -/
def NodeInfo.coordinatesPlain : {n : ℕ} → (min size : Fin n → ℕ) → ℕ → (Fin n → ℕ)
  | 0, _, _, _ => fun d => d.elim0
  | 1, min, _, idx => fun _ => idx + min 0
  | _ + 2, min, size, idx =>
    let nd := idx / size 0
    Fin.cons (idx - nd * size 0 + min 0)
      (NodeInfo.coordinatesPlain (Fin.tail min) (Fin.tail size) nd)

/-- `global_coordinates(index)` (lattice.h:389-396). -/
def Layout.globalCoordinates {n : ℕ} (lay : Layout n) (index : ℕ) : Site n := digits lay.L index

end Hila
