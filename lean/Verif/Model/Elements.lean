import Verif.Model.Gather

/-!
# Lists of elements: gather, scatter, set, get, subvolumes and slices

Models `gather_elements`, `scatter_elements`, `set_elements`, `get_elements`, `get_subvolume`,
`get_range_from_slice` and `get_slice` of `/repo/libraries/plumbing/field_comm.h` 823-1065 for the
CPU back end. `mem r` is the field memory of rank `r`. All ranks call these functions with the same
coordinate list (the code's precondition). A buffer is a memory together with its size; an access
beyond the size sets an error flag.
-/

namespace Hila

/-- `index_list` on rank `r` (field_comm.h:839-844, 921-926): the slots of the coordinates owned by
`r`, in list order. -/
def indexList {n : ℕ} (lay : Layout n) (cs : List (Site n)) (r : ℕ) : List ℕ :=
  (cs.filter fun c => lay.nodeRank c = r).map (lay.nodeinfo r).siteIndex

/-- `reshuffle_list` (field_comm.h:849, 931). -/
def reshuffleList {n : ℕ} (lay : Layout n) (cs : List (Site n)) : List ℕ := cs.map lay.nodeRank

/-- `sites_on_rank` (field_comm.h:834, 848 and 917, 930): the counters after the loop over the
list of owner ranks. -/
def sitesOnRank (ranks : List ℕ) : ℕ → ℕ :=
  ranks.foldl (fun s r => Function.update s r (s r + 1)) fun _ => 0

/-- `payload.gather_elements` (backend_cpu/field_storage_backend.h): copy the listed slots to a
buffer. -/
def payloadGather {V : Type} (mem : Mem V) (idx : List ℕ) : List V := idx.map mem

/-- `payload.place_elements` (backend_cpu/field_storage_backend.h): write `data[j]` to slot
`idx[j]`, in order. -/
def payloadPlace {V : Type} (mem : Mem V) (idx : List ℕ) (data : List V) : Mem V :=
  (idx.zip data).foldl (fun m p => Function.update m p.1 p.2) mem

/-- State of the root rank while posting receives (field_comm.h:861-886): next free position `b`
of `pb`, contents of `pb`, start positions `nptr`, error flag. -/
structure RecvState (V : Type) where
  b : ℕ
  pb : Mem V
  nptr : ℕ → ℕ
  bad : Bool

/-- One iteration `n` of the receive loop (field_comm.h:869-886). For `n = root` the pointer goes
to the start of `send_buffer`. The message is already complete after `MPI_Waitall`, so it is placed
here; a message of a length other than `sites_on_rank[n]`, or one that does not fit in `pb`, is an
error. -/
def recvStep {V : Type} (root size : ℕ) (sites : ℕ → ℕ) (msg : ℕ → List V) (s : RecvState V)
    (n : ℕ) : RecvState V :=
  if 0 < sites n then
    if n ≠ root then
      { b := s.b + sites n, pb := placeAt s.pb s.b (msg n), nptr := Function.update s.nptr n s.b,
        bad := s.bad || decide ((msg n).length ≠ sites n ∨ size < s.b + sites n) }
    else { s with nptr := Function.update s.nptr n 0 }
  else s

/-- State of the reordering loop (field_comm.h:893-896). -/
structure ReorderState (V : Type) where
  nptr : ℕ → ℕ
  out : List V
  bad : Bool

/-- One iteration of the reordering loop (field_comm.h:893-896): read through `nptr[rank]` and
advance it. `sendBuf` and `pb` with its `size` are the two buffers the pointers go into. -/
def reorderStep {V : Type} (root size : ℕ) (dflt : V) (sendBuf : List V) (pb : Mem V)
    (s : ReorderState V) (rank : ℕ) : ReorderState V :=
  let p := s.nptr rank
  { nptr := Function.update s.nptr rank (p + 1)
    out := s.out ++ [if rank = root then sendBuf.getD p dflt else pb p]
    bad := s.bad || (if rank = root then decide (sendBuf.length ≤ p) else decide (size ≤ p)) }

/-- `gather_elements` as seen on the root rank (field_comm.h:823-897): the contents of `buffer`,
or `none` after an access out of bounds or a message of the wrong length. `dflt` is the value of a
default constructed element (`std::vector<T> pb(size)`). -/
def gatherElements {n : ℕ} {V : Type} (lay : Layout n) (dflt : V) (mem : ℕ → Mem V)
    (cs : List (Site n)) (root : ℕ) : Option (List V) :=
  let ranks := reshuffleList lay cs
  let sites := sitesOnRank ranks
  let msg := fun r => payloadGather (mem r) (indexList lay cs r)
  let size := cs.length - sites root
  let rv := (List.range lay.numNodes).foldl (recvStep root size sites msg)
    ⟨0, fun _ => dflt, fun _ => 0, false⟩
  let ro := ranks.foldl (reorderStep root size dflt (msg root) rv.pb) ⟨rv.nptr, [], rv.bad⟩
  if ro.bad then none else some ro.out

/-- `nloc` (field_comm.h:951-956). -/
def nloc (sites : ℕ → ℕ) : ℕ → ℕ
  | 0 => 0
  | n + 1 => nloc sites n + sites n

/-- State of the regrouping loop of `scatter_elements` (field_comm.h:957-961). -/
structure RegroupState (V : Type) where
  pb : Mem V
  ncount : ℕ → ℕ
  bad : Bool

/-- One iteration of the regrouping loop (field_comm.h:957-961). -/
def regroupStep {V : Type} (size : ℕ) (sites : ℕ → ℕ) (s : RegroupState V) (p : ℕ × V) :
    RegroupState V :=
  let pos := nloc sites p.1 + s.ncount p.1
  { pb := Function.update s.pb pos p.2
    ncount := Function.update s.ncount p.1 (s.ncount p.1 + 1)
    bad := s.bad || decide (size ≤ pos) }

/-- `scatter_elements` (field_comm.h:902-977): `buffer` is the content of the buffer on root; the
result is the memory of every rank, or `none` after an access out of bounds. A rank without sites
receives nothing. The message to rank `r` is `sites_on_rank[r]` elements from `nloc[r]` on; root
takes its own part directly from `pb`. -/
def scatterElements {n : ℕ} {V : Type} (lay : Layout n) (dflt : V) (mem : ℕ → Mem V)
    (cs : List (Site n)) (buffer : List V) : Option (ℕ → Mem V) :=
  let ranks := reshuffleList lay cs
  let sites := sitesOnRank ranks
  let rg := (ranks.zip buffer).foldl (regroupStep cs.length sites) ⟨fun _ => dflt, fun _ => 0, false⟩
  if rg.bad ∨ buffer.length < cs.length then none
  else some fun r =>
    if 0 < sites r then
      payloadPlace (mem r) (indexList lay cs r)
        ((List.range (sites r)).map fun k => rg.pb (nloc sites r + k))
    else mem r

/-- `set_elements` (field_comm.h:979-996): `none` is the failed assertion on the sizes. -/
def setElements {n : ℕ} {V : Type} (lay : Layout n) (mem : ℕ → Mem V) (elements : List V)
    (cs : List (Site n)) : Option (ℕ → Mem V) :=
  if elements.length ≠ cs.length then none
  else some fun r =>
    let mine := (cs.zip elements).filter fun p => (lay.nodeinfo r).isOnNode p.1
    payloadPlace (mem r) (mine.map fun p => (lay.nodeinfo r).siteIndex p.1) (mine.map (·.2))

/-- `get_elements` on rank `r` (field_comm.h:1001-1014): rank 0 is the root; without `bcast` the
other ranks return an empty vector. -/
def getElements {n : ℕ} {V : Type} (lay : Layout n) (dflt : V) (mem : ℕ → Mem V)
    (cs : List (Site n)) (bcast : Bool) (r : ℕ) : Option (List V) :=
  match gatherElements lay dflt mem cs 0 with
  | none => none
  | some l => some (if r = 0 ∨ bcast then l else [])

/-- `forcoordinaterange(c, cmin, cmax)` (lattice.h:686-731): nested inclusive loops, the last
direction outermost. The macro exists for NDIM 1 to 4; the model takes any NDIM. -/
def coordinateRange : {n : ℕ} → (cmin cmax : Fin n → ℕ) → List (Fin n → ℕ)
  | 0, _, _ => [fun d => d.elim0]
  | _ + 1, cmin, cmax =>
    (coordinateRange (Fin.tail cmin) (Fin.tail cmax)).flatMap fun rest =>
      (List.range (cmax 0 + 1 - cmin 0)).map fun k => Fin.cons (cmin 0 + k) rest

/-- `get_subvolume` (field_comm.h:1019-1036). The corner arguments are general coordinate vectors;
`none` is the failed assertion. The list `clist` has been allocated with the product of the extents
as its length; `C36_range_length` shows the loop fills exactly that many entries. -/
def getSubvolume {n : ℕ} {V : Type} (lay : Layout n) (dflt : V) (mem : ℕ → Mem V) (cmin cmax : CV n)
    (bcast : Bool) (r : ℕ) : Option (List V) :=
  if (List.finRange n).all fun d => decide (cmin d ≤ cmax d ∧ 0 ≤ cmin d ∧ cmax d < lay.L d) then
    getElements lay dflt mem
      (coordinateRange (fun d => (cmin d).toNat) (fun d => (cmax d).toNat)) bcast r
  else none

/-- `get_range_from_slice` (field_comm.h:1040-1052). -/
def rangeFromSlice {n : ℕ} (lay : Layout n) (slice : CV n) : CV n × CV n :=
  (fun d => if slice d < 0 then 0 else slice d,
   fun d => if slice d < 0 then (lay.L d : ℤ) - 1 else slice d)

/-- `get_slice` (field_comm.h:1056-1062). -/
def getSlice {n : ℕ} {V : Type} (lay : Layout n) (dflt : V) (mem : ℕ → Mem V) (slice : CV n)
    (bcast : Bool) (r : ℕ) : Option (List V) :=
  getSubvolume lay dflt mem (rangeFromSlice lay slice).1 (rangeFromSlice lay slice).2 bcast r

/-! ## Field files -/

/-- The part `i .. i+sites-1` of the sites in file order (field_io.h:147-153, 241-246). -/
def chunkCoords {n : ℕ} (lay : Layout n) (vol per i : ℕ) : List (Site n) :=
  (List.range (min per (vol - i))).map fun j => lay.globalCoordinates (i + j)

/-- `Field::write`, binary, from site `i` on (field_io.h:128-167): the elements appended to the
file by rank 0. `per` is `sites_per_write = WRITE_BUFFER_SIZE / sizeof(T)`. The element type stands
for `sizeof(T)` bytes. `fuel` bounds the number of iterations; `none` at zero fuel never happens
with `fuel = vol + 1` when `per > 0`. -/
def writeFrom {n : ℕ} {V : Type} (lay : Layout n) (dflt : V) (mem : ℕ → Mem V) (vol per : ℕ) :
    ℕ → ℕ → Option (List V)
  | 0, _ => none
  | fuel + 1, i =>
    if i < vol then do
      let l ← gatherElements lay dflt mem (chunkCoords lay vol per i) 0
      let rest ← writeFrom lay dflt mem vol per fuel (i + per)
      some (l ++ rest)
    else some []

/-- Number of lattice sites, `mylat.volume()`. -/
def Layout.latVolume {n : ℕ} (lay : Layout n) : ℕ := ∏ d, lay.L d

/-- `Field::write` (field_io.h:128-167). -/
def writeField {n : ℕ} {V : Type} (lay : Layout n) (dflt : V) (per : ℕ) (mem : ℕ → Mem V) :
    Option (List V) :=
  writeFrom lay dflt mem lay.latVolume per (lay.latVolume + 1) 0

/-- An input stream of elements: what is left of the file and the stream's failure bit. -/
structure InStream (A : Type) where
  data : List A
  fail : Bool

/-- `inputfile.read(buf, k elements)`: a read past the end delivers what is there and sets the
failure bit; a failed stream delivers nothing. (A final partial element counts as absent.) -/
def InStream.read {A : Type} (s : InStream A) (k : ℕ) : List A × InStream A :=
  if s.fail then ([], s)
  else if s.data.length < k then (s.data, ⟨[], true⟩)
  else (s.data.take k, ⟨s.data.drop k, false⟩)

/-- Rank 0's buffer after reading `got` into its beginning. -/
def overwrite {A : Type} (buf got : List A) : List A := got ++ buf.drop got.length

/-- `Field::read` from site `i` on (field_io.h:222-257): `buf` is rank 0's buffer (its content is
undefined at first). The failure bit is not looked at here: elements not delivered keep what the
buffer held. Returns the memories and the stream. -/
def readFrom {n : ℕ} {V : Type} (lay : Layout n) (dflt : V) (vol per : ℕ) :
    ℕ → ℕ → List V → InStream V → (ℕ → Mem V) → Option ((ℕ → Mem V) × InStream V)
  | 0, _, _, _, _ => none
  | fuel + 1, i, buf, st, mem =>
    if i < vol then do
      let sites := min per (vol - i)
      let buf' := overwrite buf (st.read sites).1
      let mem' ← scatterElements lay dflt mem (chunkCoords lay vol per i) (buf'.take sites)
      readFrom lay dflt vol per fuel (i + per) buf' (st.read sites).2 mem'
    else some (mem, st)

/-- `Field::read(inputfile)` (field_io.h:222-257); `junk` is the content of the freshly allocated
buffer of `per` elements. -/
def readField {n : ℕ} {V : Type} (lay : Layout n) (dflt : V) (per : ℕ) (junk : List V)
    (mem : ℕ → Mem V) (st : InStream V) : Option ((ℕ → Mem V) × InStream V) :=
  readFrom lay dflt lay.latVolume per (lay.latVolume + 1) 0 junk st mem

/-- `Field::read(filename)` (field_io.h:331-336) with `close_file` (field_io.h:63-79), which
terminates the program when the stream has failed: `none`. -/
def readFile {n : ℕ} {V : Type} (lay : Layout n) (dflt : V) (per : ℕ) (junk : List V)
    (mem : ℕ → Mem V) (file : List V) : Option (ℕ → Mem V) :=
  match readField lay dflt per junk mem ⟨file, false⟩ with
  | none => none
  | some (mem', st) => if st.fail then none else some mem'

/-- Coordinates `j = 0 ..` of one chunk in the smaller input lattice (field_io.h:295-301). -/
def chunkCoordsIn {n : ℕ} (insize : Site n) (tvol per i : ℕ) : List (Site n) :=
  (List.range (min per (tvol - i))).map fun j => digits insize (i + j)

/-- Coordinates shifted to copy number `sci` (field_io.h:311-320). -/
def tileCoords {n : ℕ} (L insize : Site n) (sci : ℕ) (cs : List (Site n)) : List (Site n) :=
  cs.map fun c d => (c d + digits (fun d => L d / insize d) sci d * insize d) % L d

/-- Scatter the same buffer to all further copies `sci = 1 .. scvol-1` (field_io.h:311-322). -/
def scatterTiles {n : ℕ} {V : Type} (lay : Layout n) (dflt : V) (insize : Site n)
    (cs : List (Site n)) (buffer : List V) (scis : List ℕ) (mem : ℕ → Mem V) :
    Option (ℕ → Mem V) :=
  match scis with
  | [] => some mem
  | sci :: rest => do
    let mem' ← scatterElements lay dflt mem (tileCoords lay.L insize sci cs) buffer
    scatterTiles lay dflt insize cs buffer rest mem'

/-- Loop of `Field::read(inputfile, insize)` (field_io.h:287-324). -/
def readTiledFrom {n : ℕ} {V : Type} (lay : Layout n) (dflt : V) (insize : Site n)
    (tvol scvol per : ℕ) :
    ℕ → ℕ → List V → InStream V → (ℕ → Mem V) → Option ((ℕ → Mem V) × InStream V)
  | 0, _, _, _, _ => none
  | fuel + 1, i, buf, st, mem =>
    if i < tvol then do
      let sites := min per (tvol - i)
      let buf' := overwrite buf (st.read sites).1
      let cs := chunkCoordsIn insize tvol per i
      let mem' ← scatterElements lay dflt mem cs (buf'.take sites)
      let mem'' ← scatterTiles lay dflt insize cs (buf'.take sites)
        ((List.range (scvol - 1)).map (· + 1)) mem'
      readTiledFrom lay dflt insize tvol scvol per fuel (i + per) buf' (st.read sites).2 mem''
    else some (mem, st)

/-- `Field::read(inputfile, insize)` (field_io.h:261-328). `none` also when an input extent is zero
(integer division by zero at 281). -/
def readTiled {n : ℕ} {V : Type} (lay : Layout n) (dflt : V) (per : ℕ) (junk : List V)
    (insize : Site n) (mem : ℕ → Mem V) (st : InStream V) : Option ((ℕ → Mem V) × InStream V) :=
  if (List.finRange n).any fun d => decide (insize d = 0) then none
  else
    readTiledFrom lay dflt insize (∏ d, insize d) (∏ d, lay.L d / insize d) per
      ((∏ d, insize d) + 1) 0 junk st mem

/-- State of the writing loop of `write_subvolume_internal` (field_io.h:404-450): coordinates
collected so far, number of sites seen, output, failure. -/
structure SubvolState (n : ℕ) (V : Type) where
  pending : List (Site n)
  seen : ℕ
  out : Option (List V)

/-- One iteration of the loop (field_io.h:410-450), binary, without conversion to float. -/
def subvolStep {n : ℕ} {V : Type} (lay : Layout n) (dflt : V) (mem : ℕ → Mem V) (nWrite sites : ℕ)
    (s : SubvolState n V) (c : Site n) : SubvolState n V :=
  let pending := s.pending ++ [c]
  let seen := s.seen + 1
  if pending.length = nWrite ∨ seen = sites then
    { pending := [], seen := seen
      out := (s.out.bind fun o => (gatherElements lay dflt mem pending 0).map fun l => o ++ l) }
  else { pending := pending, seen := seen, out := s.out }

/-- `write_subvolume_internal` (field_io.h:366-452): `none` when the assertion on the corners
fails; `per = WRITE_BUFFER_SIZE / sizeof(T)`. Elements still pending when the loop ends are never
written. -/
def writeSubvolume {n : ℕ} {V : Type} (lay : Layout n) (dflt : V) (per : ℕ) (mem : ℕ → Mem V)
    (cmin cmax : CV n) : Option (List V) :=
  if (List.finRange n).all fun d => decide (cmin d ≤ cmax d ∧ 0 ≤ cmin d ∧ cmax d < lay.L d) then
    let lo : Site n := fun d => (cmin d).toNat
    let hi : Site n := fun d => (cmax d).toNat
    let sites := ∏ d, (hi d - lo d + 1)
    ((coordinateRange lo hi).foldl (subvolStep lay dflt mem (min per sites) sites)
      ⟨[], 0, some []⟩).out
  else none

end Hila
