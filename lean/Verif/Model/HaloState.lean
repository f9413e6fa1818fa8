import Verif.Model.Coord
import Mathlib.Logic.Function.Basic

/-!
# Halo bookkeeping of one field

Models the gather status machine of `Field` (`/repo/libraries/plumbing/field.h` 540-720,
2247-2282; `field_comm.h` 384-429, 487-695) for the CPU MPI build: which halo messages are
posted, waited for and considered up to date, and what a loop reads.

The geometry (which site is where) is a parameter `Geo`; `Model/Gather` supplies it. All ranks
execute the same sequence of calls (HILA is SPMD) and are modelled in lock step: a message is
matched with the partner's message of the same call, which is what the tag drawn at the top of
`start_communication` achieves (C40).
-/

namespace Hila

/-- What the status machine needs to know about the decomposition: sites `S`, directions `D`,
ranks `R`. `comm r d` is the negation of the test `from_node.rank == myrank && to_node.rank ==
myrank` (field_comm.h:401, 644); `partner r d` is `nn_comminfo[d].from_node.rank`. -/
structure Geo (S D R : Type) where
  nb : D → S → S
  owner : S → R
  parity : S → Parity
  comm : R → D → Bool
  partner : R → D → R

/-- `gather_status_t` (field.h:75). -/
inductive GStatus where
  | notDone | started | done
  deriving DecidableEq, Repr

/-- Communication state of one field on one rank. `inflight` are the posted and not yet waited
for requests `receive_request/send_request[par][d]`; `sendbuf` is what has been copied into the
send buffer when the message was posted (all sites of the rank, of which the boundary ones are sent);
`halo d c` is the halo slot of the neighbour of `c` in direction `d`. `err` becomes true when the
rank calls `exit(1)`, waits for a message that was never posted, or posts a message into a buffer
region or request that is still in flight. -/
structure Loc (S D V : Type) where
  status : D → Parity → GStatus
  inflight : D → Parity → Bool
  sendbuf : D → Parity → S → V
  halo : D → S → V
  err : Bool

/-- The field on all ranks: the site values and the communication state of each rank. -/
structure HState (S D R V : Type) where
  val : S → V
  loc : R → Loc S D V

/-- `is_gathered` (field.h:669-678). -/
def isGathered (st : Parity → GStatus) (par : Parity) : Bool :=
  if par ≠ .all then st par == .done || st .all == .done
  else st .all == .done || (st .even == .done && st .odd == .done)

/-- Result of `check_communication` (field_comm.h:385-429): nothing to post (either done or
already under way), mark as done without communication, or post the given parity. -/
inductive Check where
  | nothing | markDone | post (q : Parity)
  deriving DecidableEq, Repr

/-- `check_communication` (field_comm.h:385-429). `set_local_boundary_elements` does nothing for
periodic boundaries on the CPU. -/
def checkCommunication (comm : Bool) (st : Parity → GStatus) (p : Parity) : Check :=
  if isGathered st p then .nothing
  else if !comm then .markDone
  else if st p ≠ .notDone ∨ st .all ≠ .notDone then .nothing
  else if p = .all then
    if st .even ≠ .notDone ∧ st .odd ≠ .notDone then .nothing
    else if st .even ≠ .notDone then .post .odd
    else if st .odd ≠ .notDone then .post .even
    else .post .all
  else .post p

/-- Update of a two-argument table. -/
def upd2 {D P A : Type} [DecidableEq D] [DecidableEq P] (f : D → P → A) (d : D) (p : P) (a : A) :
    D → P → A := Function.update f d (Function.update (f d) p a)

section
variable {S D R V : Type} [DecidableEq D] [DecidableEq R] (g : Geo S D R)

/-- Two parities whose message buffers or requests overlap. -/
def Parity.overlaps (p q : Parity) : Bool := p == q || p == .all || q == .all

/-- Some message overlapping parity `q` is still in flight. -/
def busy (l : Loc S D V) (d : D) (q : Parity) : Bool :=
  (l.inflight d .even && Parity.overlaps .even q) || (l.inflight d .odd && Parity.overlaps .odd q) ||
    (l.inflight d .all && Parity.overlaps .all q)

/-- `start_communication` on one rank (field_comm.h:487-591). -/
def startLoc (s : HState S D R V) (d : D) (p : Parity) (r : R) : Loc S D V :=
  let l := s.loc r
  match checkCommunication (g.comm r d) (l.status d) p with
  | .nothing => l
  | .markDone => { l with status := upd2 l.status d p .done }
  | .post q =>
    { l with
      status := upd2 l.status d q .started
      inflight := upd2 l.inflight d q true
      sendbuf := upd2 l.sendbuf d q fun c => if g.owner c = r then s.val c else l.sendbuf d q c
      err := l.err || busy l d q }

/-- `start_gather(d, p)` on all ranks. -/
def start (s : HState S D R V) (d : D) (p : Parity) : HState S D R V :=
  { s with loc := startLoc g s d p }

/-- `resolve_started_parity` (field_comm.h:594-622): the parities to wait for, `none` for
`exit(1)`. -/
def resolveStarted (st : Parity → GStatus) (p : Parity) : Option (List Parity) :=
  if p ≠ .all ∧ st p = .started ∧ st .all = .started then some [.all]
  else if st p = .started then some [p]
  else if p ≠ .all then
    if st .all = .started then some [.all] else none
  else if isGathered st .even ∧ st .odd = .started then some [.odd]
  else if isGathered st .odd ∧ st .even = .started then some [.even]
  else if st .even = .started ∧ st .odd = .started then some [.even, .odd]
  else none

/-- Visited sites of a loop over `par`. -/
def Parity.visits (par q : Parity) : Bool := par == .all || q == par

/-- One turn of the loop in `wait_gather` (field_comm.h:660-694) on rank `r`: wait for the
receive of parity `q`, which fills the halo slots of the sites of that parity with the partner's
message, then for the send. `s` is the state the partner is looked up in. -/
def waitOne (s : HState S D R V) (r : R) (d : D) (l : Loc S D V) (q : Parity) : Loc S D V :=
  let pl := s.loc (g.partner r d)
  { l with
    halo := Function.update l.halo d fun c =>
      if q.visits (g.parity c) then pl.sendbuf d q (g.nb d c) else l.halo d c
    inflight := upd2 l.inflight d q false
    status := upd2 l.status d q .done
    err := l.err || !l.inflight d q || !pl.inflight d q }

/-- `wait_gather` on one rank (field_comm.h:631-695). -/
def waitLoc (s : HState S D R V) (d : D) (p : Parity) (r : R) : Loc S D V :=
  let l := s.loc r
  if isGathered (l.status d) p then l
  else if !g.comm r d then l
  else match resolveStarted (l.status d) p with
    | none => { l with err := true }
    | some qs => qs.foldl (waitOne g s r d) l

/-- `wait_gather(d, p)` on all ranks. -/
def wait (s : HState S D R V) (d : D) (p : Parity) : HState S D R V :=
  { s with loc := waitLoc g s d p }

/-- `if (is_gather_started(d, q)) wait_gather(d, q)`, the building block of `drop_comms`
(field.h:2247-2274). -/
def dropOne (s : HState S D R V) (d : D) (q : Parity) : HState S D R V :=
  { s with loc := fun r => if (s.loc r).status d q = .started then waitLoc g s d q r else s.loc r }

/-- `drop_comms(d, p)` (field.h:2247-2274). -/
def dropComms (s : HState S D R V) (d : D) (p : Parity) : HState S D R V :=
  let s := dropOne g s d .all
  if p ≠ .all then dropOne g s d p
  else dropOne g (dropOne g s d .even) d .odd

/-- The status changes of `mark_changed(p)` for one direction (field.h:589-595). -/
def markStatus (p : Parity) (d : D) (st : D → Parity → GStatus) : D → Parity → GStatus :=
  let st := upd2 st d (oppParity p) .notDone
  if p ≠ .all then upd2 st d .all .notDone
  else upd2 (upd2 st d .even .notDone) d .odd .notDone

/-- The body of the loop of `mark_changed(p)` for one direction (field.h:585-596). -/
def markChangedDir (p : Parity) (s : HState S D R V) (d : D) : HState S D R V :=
  let s := dropComms g s d (oppParity p)
  { s with loc := fun r => { s.loc r with status := markStatus p d (s.loc r).status } }

/-- `mark_changed(p)` (field.h:583-602); `dirs` lists all directions. -/
def markChanged (dirs : List D) (p : Parity) (s : HState S D R V) : HState S D R V :=
  dirs.foldl (markChangedDir g p) s

/-- Operations of a program on the field. -/
inductive FOp (S D V : Type) where
  /-- a site loop over `p` assigning the field, `mark_changed(p)` after it (codegen.cpp:513-522);
  the new values are arbitrary -/
  | assign (p : Parity) (new : S → V)
  /-- explicit `start_gather(d, p)` -/
  | start (d : D) (p : Parity)
  /-- a site loop over `p` reading `f[X + d]` for the listed directions: `start_gather` for each,
  `wait_gather` for each, then the reads (codegen.cpp:444-507) -/
  | read (ds : List D) (p : Parity)

/-- What the loop body sees as `f[X+d]` at site `c`: the own value of the neighbour if it is on
the same rank, otherwise the halo slot. -/
def readAt (s : HState S D R V) (d : D) (c : S) : V :=
  if g.owner (g.nb d c) = g.owner c then s.val (g.nb d c) else (s.loc (g.owner c)).halo d c

/-- One operation; a read loop also returns what it saw. -/
def fstep (dirs : List D) (s : HState S D R V) : FOp S D V →
    HState S D R V × Option (D → S → V)
  | .assign p new =>
    let val := fun c => if p.visits (g.parity c) then new c else s.val c
    (markChanged g dirs p { s with val := val }, none)
  | .start d p => (start g s d p, none)
  | .read ds p =>
    let s := ds.foldl (fun s d => start g s d p) s
    let s := ds.foldl (fun s d => wait g s d p) s
    (s, some (readAt g s))

/-- Run a program, collecting what each operation saw. -/
def frun (dirs : List D) (s : HState S D R V) : List (FOp S D V) →
    HState S D R V × List (Option (D → S → V))
  | [] => (s, [])
  | op :: ops =>
    let (s, o) := fstep g dirs s op
    let (s', os) := frun dirs s ops
    (s', o :: os)

/-- A freshly allocated field: `initialize_communication` (field.h:183-192); site values and halo
contents are arbitrary. (`allocate` also calls `mark_changed(ALL)`, which changes nothing in this
state.) -/
def finit (val : S → V) (halo : R → D → S → V) (buf : R → D → Parity → S → V) : HState S D R V :=
  { val := val
    loc := fun r =>
      { status := fun _ _ => .notDone, inflight := fun _ _ => false, sendbuf := buf r,
        halo := halo r, err := false } }

end

end Hila
