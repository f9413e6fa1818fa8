import Verif.Model.Layout

/-!
# Model of the FFT and reflection data path (plumbing/fft.h, fft.cpp, fft_fftw_transform.h)

The lattice is cut into pencils along one direction at a time: every rank sends parts of its lines to
the other ranks of the same column of ranks, each of which completes some of the lines, transforms
them and sends the parts back. `A` is the type `cmplx_t`, a field value consists of `E` of them
(`elements`). The one-dimensional transform of the FFT library is a parameter. Arrays are functions
from addresses; array bounds are the subject of `C17_in_bounds`. Timers are omitted. Sizes are
unbounded (the message size limit `2^31` of `gather_data` is not modelled). The CPU version
(`USE_FFTW`) is modelled.
-/

namespace Hila

variable {n : ℕ} {A : Type}

/-- `pencil_get_buffer_offsets` (fft.cpp:33-49): `offset[dir] = 1`, and a running product over the
other directions. The returned element offset is `size dir`. -/
def pencilOffsets (size : Site n) (dir : Fin n) (E : ℕ) : Site n :=
  ((List.finRange n).foldl (fun (acc : Site n × ℕ) d =>
    if d ≠ dir then (Function.update acc.1 d acc.2, acc.2 * size d) else acc)
    (Function.update (fun _ => 0) dir 1, size dir * E)).1

/-- The address of element `e` of the site `c` in the buffers:
`offset.dot(X.coordinates() - nmin) + e*elem_offset` (fft.h:204-207, 235-238, 268-273). -/
def pencilAddr (ni : NodeInfo n) (dir : Fin n) (E : ℕ) (c : Site n) (e : ℕ) : ℕ :=
  (∑ d, pencilOffsets ni.size dir E d * (c d - ni.min d)) + e * ni.size dir

/-- `is_in_column` (fft.cpp:74-79). -/
def inColumn (lay : Layout n) (r q : ℕ) (dir : Fin n) : Bool :=
  (List.finRange n).all fun d =>
    !decide (d ≠ dir ∧ (lay.nodeinfo q).min d ≠ (lay.nodeinfo r).min d)

/-- Field `node` of `hila_pencil_comms[dir].at(i)` on rank `r` (fft.cpp:70-93). An entry that is
never written would be uninitialised; the value `numNodes`, which is not a rank, stands for that. -/
def pencilNode (lay : Layout n) (r : ℕ) (dir : Fin n) (i : ℕ) : ℕ :=
  (List.range lay.numNodes).foldl (fun acc q =>
    if inColumn lay r q dir = true ∧
      (lay.nodeinfo q).min dir = (divisors (lay.L dir) (lay.ndiv dir)).getD i 0 then q else acc)
    lay.numNodes

/-- Field `size_to_dir` of the entry (fft.cpp:86). -/
def pencilSize (lay : Layout n) (r : ℕ) (dir : Fin n) (i : ℕ) : ℕ :=
  (lay.nodeinfo (pencilNode lay r dir i)).size dir

/-- `total_columns` (fft.cpp:95). -/
def totalColumns (lay : Layout n) (r : ℕ) (dir : Fin n) : ℕ :=
  (lay.nodeinfo r).volume / (lay.nodeinfo r).size dir

/-- `fn.column_offset` (fft.cpp:102). -/
def columnOffset (lay : Layout n) (r : ℕ) (dir : Fin n) (i : ℕ) : ℕ :=
  ((i * totalColumns lay r dir) / lay.ndiv dir) * (lay.nodeinfo r).size dir

/-- `fn.column_number` (fft.cpp:103-104). -/
def columnNumber (lay : Layout n) (r : ℕ) (dir : Fin n) (i : ℕ) : ℕ :=
  ((i + 1) * totalColumns lay r dir) / lay.ndiv dir -
    columnOffset lay r dir i / (lay.nodeinfo r).size dir

/-- `hila_fft_my_columns[dir]` (fft.cpp:106-108). -/
def myColumns (lay : Layout n) (r : ℕ) (dir : Fin n) : ℕ :=
  (List.range (lay.ndiv dir)).foldl (fun acc i =>
    if pencilNode lay r dir i = r then columnNumber lay r dir i else acc) 0

/-- `fn.recv_buf_size` (fft.cpp:115). -/
def recvBufSize (lay : Layout n) (r : ℕ) (dir : Fin n) (i : ℕ) : ℕ :=
  myColumns lay r dir * pencilSize lay r dir i

/-- `pencil_recv_buf_size[dir]` (fft.cpp:112-120). -/
def pencilRecvBufSize (lay : Layout n) (r : ℕ) (dir : Fin n) : ℕ :=
  (List.range (lay.ndiv dir)).foldl (fun acc i =>
    if pencilNode lay r dir i ≠ r then acc + recvBufSize lay r dir i else acc) 0

/-- `buf_size` (fft.h:110-116): the number of field values in each buffer. -/
def fftBufSize (lay : Layout n) (r : ℕ) : ℕ :=
  let b := (List.finRange n).foldl (fun b d =>
    if pencilRecvBufSize lay r d > b then pencilRecvBufSize lay r d else b) 1
  if b < (lay.nodeinfo r).volume then (lay.nodeinfo r).volume else b

/-- The two buffers of a rank: `true` is `send_buf`, `false` is `receive_buf`. -/
abbrev PBuf (A : Type) := Bool → ℕ → A

/-- Copying `len` elements to a buffer (`memcpy`, `MPI_Irecv`). -/
def writeRange (M : PBuf A) (p : Bool × ℕ) (len : ℕ) (g : ℕ → A) : PBuf A := fun b a =>
  if b = p.1 ∧ p.2 ≤ a ∧ a < p.2 + len then g (a - p.2) else M b a

/-- `rec_p[i]` (fft.h:144-176). -/
def recPtr (lay : Layout n) (E r : ℕ) (dir : Fin n) (i : ℕ) : Bool × ℕ :=
  if pencilNode lay r dir i ≠ r then
    (false, (List.range i).foldl (fun p j =>
      if pencilNode lay r dir j ≠ r then p + recvBufSize lay r dir j * E else p) 0)
  else (true, columnOffset lay r dir i * E)

/-- The position of rank `r` in the list of rank `q`: the send to `r` posted by `q`. -/
def pencilIndex (lay : Layout n) (q : ℕ) (dir : Fin n) (r : ℕ) : ℕ :=
  ((List.range (lay.ndiv dir)).find? fun i => pencilNode lay q dir i = r).getD 0

/-- `collect_data` (fft.h:182-212) on rank `r`; `order` is the order of the sites in the loop. -/
def collectData (lay : Layout n) (E r : ℕ) (dir : Fin n) (order : List (Site n))
    (f : Site n → ℕ → A) (M : PBuf A) : PBuf A :=
  order.foldl (fun M c => (List.range E).foldl (fun M e =>
    writeRange M (true, pencilAddr (lay.nodeinfo r) dir E c e) 1 (fun _ => f c e)) M) M

/-- `reshuffle_data` (fft.h:252-278) on rank `r`. -/
def reshuffleData (lay : Layout n) (E r : ℕ) (prev dir : Fin n) (order : List (Site n))
    (M : PBuf A) : PBuf A :=
  order.foldl (fun M c => (List.range E).foldl (fun M e =>
    writeRange M (true, pencilAddr (lay.nodeinfo r) dir E c e) 1
      (fun _ => M false (pencilAddr (lay.nodeinfo r) prev E c e))) M) M

/-- `gather_data` (fft_fftw_transform.h:158-211) on all ranks: rank `r` receives from each other
rank `q` of its column the part of the send buffer of `q` that `q` sends to `r`. -/
def gatherData (lay : Layout n) (E : ℕ) (dir : Fin n) (M : ℕ → PBuf A) : ℕ → PBuf A := fun r =>
  (List.range (lay.ndiv dir)).foldl (fun Mr j =>
    let q := pencilNode lay r dir j
    if q ≠ r then
      writeRange Mr (recPtr lay E r dir j) (recvBufSize lay r dir j * E)
        (fun x => M q true (columnOffset lay q dir (pencilIndex lay q dir r) * E + x))
    else Mr) (M r)

/-- The number of elements in the message from `q` to `r` in `gather_data`
(fft_fftw_transform.h:194). -/
def gatherSendLen (lay : Layout n) (E q : ℕ) (dir : Fin n) (r : ℕ) : ℕ :=
  columnNumber lay q dir (pencilIndex lay q dir r) * E * (lay.nodeinfo q).size dir

/-- One line in `transform` or `reflect` (fft_fftw_transform.h:56-84, 285-302): the parts of line
`i` are copied to a work buffer, transformed by `F`, and copied back. -/
def transformLine (lay : Layout n) (E r : ℕ) (dir : Fin n) (F : (ℕ → A) → ℕ → A) (junk : ℕ → A)
    (M : PBuf A) (i : ℕ) : PBuf A :=
  let line := (List.range (lay.ndiv dir)).foldl (fun (acc : PBuf A × ℕ) j =>
    (writeRange acc.1 (true, acc.2) (pencilSize lay r dir j)
      (fun x => M (recPtr lay E r dir j).1
        ((recPtr lay E r dir j).2 + i * pencilSize lay r dir j + x)),
      acc.2 + pencilSize lay r dir j)) (fun _ => junk, 0)
  let out := F (line.1 true)
  ((List.range (lay.ndiv dir)).foldl (fun (acc : PBuf A × ℕ) j =>
    (writeRange acc.1
      ((recPtr lay E r dir j).1, (recPtr lay E r dir j).2 + i * pencilSize lay r dir j)
      (pencilSize lay r dir j) (fun x => out (acc.2 + x)),
      acc.2 + pencilSize lay r dir j)) (M, 0)).1

/-- `transform` (fft_fftw_transform.h:16-96) and the loop of `reflect` (273-305) on rank `r`. -/
def transformData (lay : Layout n) (E r : ℕ) (dir : Fin n) (F : (ℕ → A) → ℕ → A) (junk : ℕ → A)
    (M : PBuf A) : PBuf A :=
  (List.range (myColumns lay r dir * E)).foldl (transformLine lay E r dir F junk) M

/-- `scatter_data` (fft_fftw_transform.h:216-263) on all ranks: rank `r` receives back from each
other rank `q` of its column, into its send buffer. -/
def scatterData (lay : Layout n) (E : ℕ) (dir : Fin n) (M : ℕ → PBuf A) : ℕ → PBuf A := fun r =>
  (List.range (lay.ndiv dir)).foldl (fun Mr j =>
    let q := pencilNode lay r dir j
    if q ≠ r then
      writeRange Mr (true, columnOffset lay r dir j * E)
        (columnNumber lay r dir j * E * (lay.nodeinfo r).size dir)
        (fun x => M q (recPtr lay E q dir (pencilIndex lay q dir r)).1
          ((recPtr lay E q dir (pencilIndex lay q dir r)).2 + x))
    else Mr) (M r)

/-- The number of elements in the message from `q` to `r` in `scatter_data`
(fft_fftw_transform.h:248). -/
def scatterSendLen (lay : Layout n) (E q : ℕ) (dir : Fin n) (r : ℕ) : ℕ :=
  recvBufSize lay q dir (pencilIndex lay q dir r) * E

/-- `swap_buffers` (fft.h:284-286). -/
def swapBuffers (M : PBuf A) : PBuf A := fun b => M (!b)

/-- One pass of the `foralldir` loop of `full_transform` (fft.h:307-334). -/
def fftDirection (lay : Layout n) (E : ℕ) (F : Fin n → (ℕ → A) → ℕ → A) (junk : ℕ → A)
    (order : ℕ → List (Site n)) (input : Site n → ℕ → A) (st : Option (Fin n) × (ℕ → PBuf A))
    (dir : Fin n) : Option (Fin n) × (ℕ → PBuf A) :=
  let M1 : ℕ → PBuf A := fun r =>
    match st.1 with
    | none => collectData lay E r dir (order r) input (st.2 r)
    | some prev => reshuffleData lay E r prev dir (order r) (st.2 r)
  let M2 := gatherData lay E dir M1
  let M3 := fun r => transformData lay E r dir (F dir) junk (M2 r)
  let M4 := scatterData lay E dir M3
  (some dir, fun r => swapBuffers (M4 r))

/-- `full_transform` (fft.h:295-340) and `save_result` (fft.h:216-243). The outcome `none`: no
direction was active, the member `dir` and the buffers are uninitialised when they are read. `uninit`
are the contents of the freshly allocated buffers. -/
def fullTransform (lay : Layout n) (E : ℕ) (F : Fin n → (ℕ → A) → ℕ → A) (junk : ℕ → A)
    (uninit : ℕ → PBuf A) (order : ℕ → List (Site n)) (directions : Fin n → Bool)
    (input : Site n → ℕ → A) : Option (Site n → ℕ → A) :=
  let st := ((List.finRange n).filter fun d => directions d).foldl
    (fftDirection lay E F junk order input) (none, uninit)
  st.1.map fun dir => fun c e =>
    st.2 (lay.nodeRank c) false (pencilAddr (lay.nodeinfo (lay.nodeRank c)) dir E c e)

/-- The reflection of one line (fft_fftw_transform.h:291-294):
`for (j = 1; j < length/2; j++) swap(buf[j], buf[length-j])`. -/
def reflectLine (length : ℕ) (buf : ℕ → A) : ℕ → A :=
  (List.range (length / 2 - 1)).foldl (fun buf k =>
    let j := k + 1
    Function.update (Function.update buf j (buf (length - j))) (length - j) (buf j)) buf

/-- `Field::reflect(dirs)` (fft.h:631-642): `full_transform` with one element. -/
def reflectField (lay : Layout n) (junk : ℕ → A) (uninit : ℕ → PBuf A) (order : ℕ → List (Site n))
    (directions : Fin n → Bool) (f : Site n → A) : Option (Site n → A) :=
  (fullTransform lay 1 (fun d => reflectLine (lay.L d)) junk uninit order directions
    (fun c _ => f c)).map fun g c => g c 0

end Hila
