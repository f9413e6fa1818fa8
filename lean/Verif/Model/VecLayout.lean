import Verif.Model.Antiper

/-!
# Vectorised (AVX) layout

Models the layout with `SUBNODE_LAYOUT` and the vectorised field access of `/repo/libraries/plumbing`: `site_index` (lattice.cpp:225-314),
`vectorized_lattice_struct` (backend_vector/lattice_vector.h:19-420), `set_local_boundary_elements`, `gather_comm_vectors`, `place_recv_elements`
and the element access of backend_vector/field_storage_backend.h, and their use in field_comm.h (vectorised branches, 40-170).

The node of a rank is divided into equal subnodes. A vector holds the sites with the same place in all subnodes: lane `k` is subnode `k`. With
`dbl` the vectors of 64-bit numbers are meant, which have half as many lanes: two subnodes are merged along `mdir`.

Memory is addressed by the site index, one element of the field type per index; the place of the base-type numbers in memory is modelled
separately (`elemAddr`). Only vectorisable field types are modelled. MPI requests are reduced to the messages.
-/

namespace Hila

open BigOperators

/-- `mynode.subnodes.divisions` and `mynode.subnodes.merged_subnodes_dir` (lattice.h:120-131). The divisions are the same on all ranks. -/
structure SubDiv (n : ℕ) where
  div : Site n
  mdir : Fin n

/-- `hila::number_of_subnodes`, that is `VECTOR_SIZE / sizeof(float)`. `setup_layout` makes the product of the divisions equal to it
(setup_layout_vector.cpp:199-202). -/
def SubDiv.number {n : ℕ} (sd : SubDiv n) : ℕ := ∏ d, sd.div d

/-- `site_index(loc, nodeid)` (lattice.cpp:271-312). -/
def NodeInfo.siteIndexSub {n : ℕ} (ni : NodeInfo n) (sd : SubDiv n) (loc : Site n) : ℕ :=
  let subsize := fun d => ni.size d / sd.div d
  let l := fun d => loc d - ni.min d
  let subl := l sd.mdir / subsize sd.mdir
  let subl := subl / 2 + (subl % 2) * (sd.div sd.mdir / 2)
  let p := (List.finRange n).foldr (fun dir (p : ℕ × ℕ) =>
    (if dir ≠ sd.mdir then p.1 * sd.div dir + l dir / subsize dir else p.1, p.2 * subsize dir + l dir % subsize dir)) (subl, 0)
  let i := if loc.parity = .even then p.2 / 2 else p.2 / 2 + ni.evensites / sd.number
  p.1 + sd.number * i

/-- The loop that fills `mynode.coordinates` (lattice.cpp:574-579) with this site index, the first `k` turns. -/
def NodeInfo.fillCoordinatesSub {n : ℕ} (ni : NodeInfo n) (sd : SubDiv n) : ℕ → (ℕ → Option (Site n)) × Site n
  | 0 => (fun _ => none, ni.min)
  | k + 1 =>
    let (tab, l) := ni.fillCoordinatesSub sd k
    (Function.update tab (ni.siteIndexSub sd l) (some l), advance ni.min ni.size l)

/-- `coordinates(i)`; `C69_site_index` shows that every entry below the volume is set. -/
def NodeInfo.coordSub {n : ℕ} (ni : NodeInfo n) (sd : SubDiv n) (i : ℕ) : Site n :=
  ((ni.fillCoordinatesSub sd ni.volume).1 i).getD fun _ => 0

/-- `neighb[d][i]` on rank `r` after the first pass of `create_std_gathers` (lattice.cpp:649-682): the volume for a neighbour on another rank.
The second pass writes a larger number there; the vectorised code only compares with the volume. -/
def neighbSub {n : ℕ} (lay : Layout n) (sd : SubDiv n) (r : ℕ) (d : Dir n) (i : ℕ) : ℕ :=
  let ni := lay.nodeinfo r
  let ln := lay.neighbour (ni.coordSub sd i) d
  if ni.isOnNode ln then ni.siteIndexSub sd ln else ni.volume

/-! ### `vectorized_lattice_struct` -/

/-- `vector_size`: `VECTOR_SIZE / sizeof(float)`, or `VECTOR_SIZE / sizeof(double)`. -/
def SubDiv.vecSize {n : ℕ} (sd : SubDiv n) (dbl : Bool) : ℕ := if dbl then sd.number / 2 else sd.number

/-- `subdivisions` (lattice_vector.h:95, 107-108). -/
def SubDiv.subdivisions {n : ℕ} (sd : SubDiv n) (dbl : Bool) : Site n :=
  if dbl then Function.update sd.div sd.mdir (sd.div sd.mdir / 2) else sd.div

/-- `subnode_size` (lattice_vector.h:96, 109; lattice.cpp:595). -/
def NodeInfo.subnodeSize {n : ℕ} (ni : NodeInfo n) (sd : SubDiv n) (dbl : Bool) : Site n :=
  let size := fun d => ni.size d / sd.div d
  if dbl then Function.update size sd.mdir (size sd.mdir * 2) else size

/-- `v_sites` (lattice_vector.h:94). -/
def NodeInfo.vSites {n : ℕ} (ni : NodeInfo n) (sd : SubDiv n) (dbl : Bool) : ℕ := ni.volume / sd.vecSize dbl

/-- `is_on_first_subnode(v)` (lattice_vector.h:67-74) for `v` that is already a site of the lattice. -/
def NodeInfo.isOnFirstSubnode {n : ℕ} (ni : NodeInfo n) (sd : SubDiv n) (dbl : Bool) (v : Site n) : Bool :=
  (List.finRange n).all fun d => !decide (v d < ni.min d ∨ v d ≥ ni.min d + ni.subnodeSize sd dbl d)

/-- `is_boundary_permutation[d]` (lattice_vector.h:142). -/
def SubDiv.isBoundaryPerm {n : ℕ} (sd : SubDiv n) (dbl : Bool) (d : Fin n) : Bool := decide (sd.subdivisions dbl d > 1)

/-- `boundary_permutation[d]` for an upward direction (lattice_vector.h:144-163). -/
def boundaryPermUp {n : ℕ} (lay : Layout n) (sd : SubDiv n) (dbl : Bool) (r : ℕ) (d : Dir n) (i : ℕ) : ℕ :=
  let ni := lay.nodeinfo r
  let here : Site n := fun b => ni.min b + ni.subnodeSize sd dbl b - 1
  let idx := ni.siteIndexSub sd here
  let h := lay.neighbour (ni.coordSub sd (idx + i)) d
  (lay.nodeinfo (lay.nodeRank h)).siteIndexSub sd h % sd.vecSize dbl

/-- `boundary_permutation[d]` (lattice_vector.h:144-167); for a downward direction the inverse of the upward one. The fresh array is 0 here. -/
def boundaryPerm {n : ℕ} (lay : Layout n) (sd : SubDiv n) (dbl : Bool) (r : ℕ) (d : Dir n) : ℕ → ℕ :=
  if isUp d then boundaryPermUp lay sd dbl r d
  else (List.range (sd.vecSize dbl)).foldl (fun p i => Function.update p (boundaryPermUp lay sd dbl r (oppDir d) i) i) fun _ => 0

/-- `only_local_boundary_copy[d]` (lattice_vector.h:190-196). -/
def onlyLocalCopy {n : ℕ} (lay : Layout n) (sd : SubDiv n) (dbl : Bool) (d : Dir n) : Bool :=
  decide (lay.ndiv (axis d) = 1) && !sd.isBoundaryPerm dbl (axis d)

/-- One vector of the loop at lattice_vector.h:203-224: the array `neighbours[d]` and `c_offset`. -/
def vecNeighbStep {n : ℕ} (lay : Layout n) (sd : SubDiv n) (dbl : Bool) (r : ℕ) (d : Dir n) (s : (ℕ → ℕ) × ℕ) (i : ℕ) : (ℕ → ℕ) × ℕ :=
  let ni := lay.nodeinfo r
  let j := sd.vecSize dbl * i
  let here := ni.coordSub sd j
  if ni.isOnFirstSubnode sd dbl (lay.neighbour here d) then
    if onlyLocalCopy lay sd dbl d = true ∧ ((isUp d ∧ here (axis d) = lay.L (axis d) - 1) ∨ (¬ isUp d ∧ here (axis d) = 0)) then
      (Function.update s.1 i s.2, s.2 + 1)
    else (Function.update s.1 i (neighbSub lay sd r d j / sd.vecSize dbl), s.2)
  else (Function.update s.1 i s.2, s.2 + 1)

/-- The loop over the vectors for one direction, with `c_offset` at its start. -/
def vecNeighb {n : ℕ} (lay : Layout n) (sd : SubDiv n) (dbl : Bool) (r : ℕ) (d : Dir n) (cOff : ℕ) : (ℕ → ℕ) × ℕ :=
  (List.range ((lay.nodeinfo r).vSites sd dbl)).foldl (vecNeighbStep lay sd dbl r d) (fun _ => 0, cOff)

/-- `halo_offset[d]` for direction number `k`: `c_offset` at the start of this direction (lattice_vector.h:199-202). -/
def haloOffset {n : ℕ} (lay : Layout n) (sd : SubDiv n) (dbl : Bool) (r : ℕ) : ℕ → ℕ
  | 0 => (lay.nodeinfo r).vSites sd dbl
  | k + 1 => if h : k < 2 * n then (vecNeighb lay sd dbl r ⟨k, h⟩ (haloOffset lay sd dbl r k)).2 else haloOffset lay sd dbl r k

/-- `neighbours[d]`. -/
def neighboursVec {n : ℕ} (lay : Layout n) (sd : SubDiv n) (dbl : Bool) (r : ℕ) (d : Dir n) : ℕ → ℕ :=
  (vecNeighb lay sd dbl r d (haloOffset lay sd dbl r d.val)).1

/-- `n_halo_vectors[d]` (lattice_vector.h:225). -/
def nHaloVec {n : ℕ} (lay : Layout n) (sd : SubDiv n) (dbl : Bool) (r : ℕ) (d : Dir n) : ℕ :=
  (vecNeighb lay sd dbl r d (haloOffset lay sd dbl r d.val)).2 - haloOffset lay sd dbl r d.val

/-- `alloc_size`, in sites (lattice_vector.h:275). -/
def allocSizeVec {n : ℕ} (lay : Layout n) (sd : SubDiv n) (dbl : Bool) (r : ℕ) : ℕ := haloOffset lay sd dbl r (2 * n) * sd.vecSize dbl

/-- `halo_index[d]` (lattice_vector.h:233-271) as the list of its entries. `none` is a failed assertion (252: no lane has a neighbour on the
rank; 248: the lanes disagree; 266: not the first lane). If the array is not set (271) the list is not used. -/
def haloIndex {n : ℕ} (lay : Layout n) (sd : SubDiv n) (dbl : Bool) (r : ℕ) (d : Dir n) : List (Option ℕ) :=
  let ni := lay.nodeinfo r
  let V := sd.vecSize dbl
  ((List.range (ni.vSites sd dbl)).filter fun i => decide (neighboursVec lay sd dbl r d i ≥ ni.vSites sd dbl)).map fun i =>
    if sd.isBoundaryPerm dbl (axis d) then
      let on := (List.range V).filter fun k => decide (neighbSub lay sd r d (i * V + k) < ni.volume)
      match on with
      | [] => none
      | k :: ks =>
        let n := neighbSub lay sd r d (i * V + k) / V
        if ks.all fun k' => n == neighbSub lay sd r d (i * V + k') / V then some n else none
    else
      let n := neighbSub lay sd r d (i * V)
      if n % V = 0 then some (n / V) else none

/-- Sites of rank `r` with their neighbour in direction `d` on another rank, in storage order (lattice_vector.h:299-309). -/
def offSites {n : ℕ} (lay : Layout n) (sd : SubDiv n) (r : ℕ) (d : Dir n) : List ℕ :=
  (List.range (lay.nodeinfo r).volume).filter fun i => decide (neighbSub lay sd r d i ≥ (lay.nodeinfo r).volume)

/-- `recv_list[d]` (lattice_vector.h:298-311). -/
def recvList {n : ℕ} (lay : Layout n) (sd : SubDiv n) (dbl : Bool) (r : ℕ) (d : Dir n) : List ℕ :=
  (offSites lay sd r d).map fun i => neighboursVec lay sd dbl r d (i / sd.vecSize dbl) * sd.vecSize dbl + i % sd.vecSize dbl

/-- `recv_list_size[d]` (lattice_vector.h:295). -/
def recvListSize {n : ℕ} (lay : Layout n) (r : ℕ) (d : Dir n) : ℕ := (lay.nodeinfo r).volume / (lay.nodeinfo r).size (axis d)

/-- `site_neighbour(d, idx)` (lattice_vector.h:371-373). -/
def siteNeighbour {n : ℕ} (lay : Layout n) (sd : SubDiv n) (dbl : Bool) (r : ℕ) (d : Dir n) (idx : ℕ) : ℕ :=
  sd.vecSize dbl * neighboursVec lay sd dbl r d (idx / sd.vecSize dbl) + idx % sd.vecSize dbl

/-- `coordinates(idx)[..][k]` (lattice_vector.h:324-340, 385-392): lane `k` of the coordinates of vector `idx`, in direction `d`. -/
def vecCoordinate {n : ℕ} (lay : Layout n) (sd : SubDiv n) (dbl : Bool) (r : ℕ) (idx k : ℕ) (d : Fin n) : ℤ :=
  let ni := lay.nodeinfo r
  (((ni.coordSub sd k d : ℕ) : ℤ) - ni.coordSub sd 0 d) + ni.coordSub sd (sd.vecSize dbl * idx) d

/-- `loop_begin(P)` (lattice_vector.h:404-410). -/
def NodeInfo.vecLoopBegin {n : ℕ} (ni : NodeInfo n) (sd : SubDiv n) (dbl : Bool) (P : Parity) : ℕ := if P = .odd then ni.vSites sd dbl / 2 else 0

/-- `loop_end(P)` (lattice_vector.h:413-419). -/
def NodeInfo.vecLoopEnd {n : ℕ} (ni : NodeInfo n) (sd : SubDiv n) (dbl : Bool) (P : Parity) : ℕ :=
  if P = .even then ni.vSites sd dbl / 2 else ni.vSites sd dbl

/-! ### Data movement -/

/-- Sign of an antiperiodic boundary. -/
def signed {T : Type} [Neg T] (neg : Bool) (x : T) : T := if neg then -x else x

/-- `set_local_boundary_elements(dir, par, lattice, antiperiodic)` (field_storage_backend.h:168-257) for a vectorised field. The source vector is
a vector of the rank's own sites and the target a halo vector, so the order of the lanes does not matter. `none`: an entry of `halo_index` does
not exist. -/
def setLocalVec {n : ℕ} {T : Type} [Neg T] (lay : Layout n) (sd : SubDiv n) (dbl : Bool) (r : ℕ) (d : Dir n) (par : Parity) (neg : Bool)
    (m : Mem T) : Option (Mem T) :=
  let V := sd.vecSize dbl
  if sd.isBoundaryPerm dbl (axis d) || onlyLocalCopy lay sd dbl d then
    let nh := nHaloVec lay sd dbl r d
    let start := if par = .odd then nh / 2 else 0
    let stop := if par = .even then nh / 2 else nh
    let offset := haloOffset lay sd dbl r d.val
    let perm := if sd.isBoundaryPerm dbl (axis d) then boundaryPerm lay sd dbl r d else id
    (List.range' start (stop - start)).foldlM (fun m idx =>
      match (haloIndex lay sd dbl r d)[idx]? with
      | some (some s) => some fun j =>
          if (idx + offset) * V ≤ j ∧ j < (idx + offset) * V + V then signed neg (m (s * V + perm (j - (idx + offset) * V))) else m j
      | _ => none) m
  else some m

/-- Sites that rank `s` sends in a gather from direction `d`, in the order of `to_node.sitelist` (lattice.cpp:701-724, see `Model/Gather`):
those whose neighbour in the opposite direction is on another rank, first the ones where this neighbour is even, then the others. -/
def sendSites {n : ℕ} (lay : Layout n) (sd : SubDiv n) (s : ℕ) (d : Dir n) (par : Parity) : List ℕ :=
  let ev := fun i => (lay.neighbour ((lay.nodeinfo s).coordSub sd i) (oppDir d)).parity = .even
  (if par ≠ .odd then (offSites lay sd s (oppDir d)).filter fun i => decide (ev i) else []) ++
  (if par ≠ .even then (offSites lay sd s (oppDir d)).filter fun i => !decide (ev i) else [])

/-- `to_node.rank` / `from_node.rank` (lattice.cpp:660-668): the rank of the neighbour of the first such site, else the own rank. -/
def partnerSub {n : ℕ} (lay : Layout n) (sd : SubDiv n) (r : ℕ) (d : Dir n) : ℕ :=
  match (offSites lay sd r d).head? with
  | some i => lay.nodeRank (lay.neighbour ((lay.nodeinfo r).coordSub sd i) d)
  | none => r

/-- `gather_comm_vectors` (field_storage_backend.h:283-320): whole vectors, found at every `vector_size`-th entry of the list. `none` is a failed
assertion (299; 306-307 in the periodic case). -/
def gatherVectors {T : Type} [Neg T] (V : ℕ) (neg : Bool) (m : Mem T) (l : List ℕ) : Option (List T) :=
  if l.length % V = 0 ∧ (neg = true ∨ ∀ i < l.length, l.getD (i - i % V) 0 + i % V = l.getD i 0) then
    some ((List.range l.length).map fun i => signed neg (m (l.getD (i - i % V) 0 + i % V)))
  else none

/-- The message of rank `s` to rank `r` (field_comm.h:40-75 and 545-577). `anti` is `boundary_condition[d] == ANTIPERIODIC`; the sign is chosen
with `is_on_edge(-d)` of the sender. -/
def sentVec {n : ℕ} {T : Type} [Neg T] (lay : Layout n) (sd : SubDiv n) (dbl : Bool) (mem : ℕ → Mem T) (d : Dir n) (par : Parity) (anti : Bool)
    (s r : ℕ) : Option (List T) :=
  if partnerSub lay sd s (oppDir d) ≠ s ∧ partnerSub lay sd s (oppDir d) = r then
    let neg := anti && isOnEdge lay s (oppDir d)
    if sd.isBoundaryPerm dbl (axis d) then some ((sendSites lay sd s d par).map fun i => signed neg (mem s i))
    else gatherVectors (sd.vecSize dbl) neg (mem s) (sendSites lay sd s d par)
  else none

/-- Number of off-rank sites that are even: `from_node.evensites`. -/
def fromEvenSub {n : ℕ} (lay : Layout n) (sd : SubDiv n) (r : ℕ) (d : Dir n) : ℕ :=
  ((offSites lay sd r d).filter fun i => decide (((lay.nodeinfo r).coordSub sd i).parity = .even)).length

/-- `from_node.n_sites(par)`. -/
def fromSitesSub {n : ℕ} (lay : Layout n) (sd : SubDiv n) (r : ℕ) (d : Dir n) (par : Parity) : ℕ :=
  if par = .all then (offSites lay sd r d).length
  else if par = .even then fromEvenSub lay sd r d else (offSites lay sd r d).length - fromEvenSub lay sd r d

/-- `place_recv_elements` (field_storage_backend.h:322-353). -/
def placeRecv {n : ℕ} {T : Type} (lay : Layout n) (sd : SubDiv n) (dbl : Bool) (r : ℕ) (d : Dir n) (par : Parity) (m : Mem T) (buffer : List T) :
    Option (Mem T) :=
  let start := if par = .odd then recvListSize lay r d / 2 else 0
  let cnt := if par = .all then recvListSize lay r d else recvListSize lay r d / 2
  (List.range cnt).foldlM (fun m i =>
    match (recvList lay sd dbl r d)[i + start]?, buffer[i]? with
    | some idx, some v => some (Function.update m idx v)
    | _, _ => none) m

/-- Memory of rank `r` after a gather from direction `d` (field_comm.h:487-591, 631-695 with the vectorised branches of 85-108 and 144-170). The
local boundary is set when the gather starts, the message is put in its place when it has arrived. `none`: a failed assertion, a receive
without message, or a message of the wrong length. -/
def gatherVec {n : ℕ} {T : Type} [Neg T] (lay : Layout n) (sd : SubDiv n) (dbl : Bool) (mem : ℕ → Mem T) (d : Dir n) (par : Parity) (anti : Bool)
    (r : ℕ) : Option (Mem T) := do
  let m ← setLocalVec lay sd dbl r d par (anti && isOnEdge lay r d) (mem r)
  let s := partnerSub lay sd r d
  if s ≠ r then
    let l ← sentVec lay sd dbl mem d par anti s r
    if l.length = fromSitesSub lay sd r d par then
      if sd.isBoundaryPerm dbl (axis d) then placeRecv lay sd dbl r d par m l
      else
        let offs := if par = .odd then fromEvenSub lay sd r d else 0
        some (placeAt m (haloOffset lay sd dbl r d.val * sd.vecSize dbl + offs) l)
    else none
  else some m

/-! ### Storage of the elements -/

/-- Address, in base-type numbers, of element `e` of the site `idx`: `set_element`, `get_element`, `place_recv_elements`
(field_storage_backend.h:89-127, 345-350). -/
def elemAddr (V elements idx e : ℕ) : ℕ := (idx / V) * V * elements + idx % V + e * V

/-- Address of lane `k` of element `e` of vector `i`: `get_vector`, `set_vector` (field_storage_backend.h:46-85). -/
def vectorAddr (V elements i e k : ℕ) : ℕ := i * elements * V + (e * V + k)

/-- `set_element` (field_storage_backend.h:89-104). -/
def setElement {B : Type} (V elements : ℕ) (value : ℕ → B) (idx : ℕ) (buf : ℕ → B) : ℕ → B :=
  (List.range elements).foldl (fun b e => Function.update b (elemAddr V elements idx e) (value e)) buf

/-- `get_element` (field_storage_backend.h:109-127). -/
def getElement {B : Type} (V elements : ℕ) (buf : ℕ → B) (idx e : ℕ) : B := buf (elemAddr V elements idx e)

/-- `set_vector` (field_storage_backend.h:69-85); `value e k` is lane `k` of element `e`. -/
def setVector {B : Type} (V elements : ℕ) (value : ℕ → ℕ → B) (i : ℕ) (buf : ℕ → B) : ℕ → B :=
  (List.range elements).foldl (fun b e => (List.range V).foldl (fun b k => Function.update b (vectorAddr V elements i e k) (value e k)) b) buf

/-- `get_vector` (field_storage_backend.h:46-65). -/
def loadVector {B : Type} (V elements : ℕ) (buf : ℕ → B) (i e k : ℕ) : B := buf (vectorAddr V elements i e k)

end Hila
