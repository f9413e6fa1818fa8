import Verif.Model.Layout
import Mathlib.Data.Nat.Count

/-!
# Neighbour tables and halo exchange

Models `create_std_gathers` (EVEN_SITES_FIRST version, `/repo/libraries/plumbing/lattice.cpp`
620-744), `comm_node_struct` (`lattice.h` 161-216) and the data movement of
`Field::start_communication` / `wait_gather` (`field_comm.h` 487-591, 631-695) for the CPU
(VANILLA) back end with periodic boundary conditions.
-/

namespace Hila

open BigOperators

/-- The neighbour `(l + d).mod(l_size)` of a site (lattice.cpp:655, 716). -/
def Layout.neighbour {n : ℕ} (lay : Layout n) (c : Site n) (d : Dir n) : Site n :=
  fun i => (CV.mod (CV.addDir (Site.toCV c) d) (Site.toCV lay.L) i).toNat

/-- `coordinates(i)`; by C01 every slot below the volume is set, the default is never used for
those. -/
def NodeInfo.coord {n : ℕ} (ni : NodeInfo n) (i : ℕ) : Site n := (ni.coordinates i).getD fun _ => 0

/-- `comm_node_struct` (lattice.h:161-216). The array `sitelist` is a function; entries outside
`0 .. sites-1` are never read (theorem `C04_sitelist_entries`). -/
structure CommNode where
  rank : ℕ
  sites : ℕ
  evensites : ℕ
  oddsites : ℕ
  buffer : ℕ
  sitelist : ℕ → ℕ

/-- `n_sites(par)` (lattice.h:182-191). -/
def CommNode.nSites (c : CommNode) (par : Parity) : ℕ :=
  if par = .all then c.sites else if par = .even then c.evensites else c.oddsites

/-- `offset(par)` (lattice.h:203-209). -/
def CommNode.offset (c : CommNode) (par : Parity) : ℕ :=
  if par = .odd then c.buffer + c.evensites else c.buffer

/-- `get_sitelist(par, size)` (lattice.h:168-179): pointer into `sitelist` plus a length, as the
list of entries. -/
def CommNode.getSitelist (c : CommNode) (par : Parity) : List ℕ :=
  if par = .all then (List.range c.sites).map c.sitelist
  else if par = .even then (List.range c.evensites).map c.sitelist
  else (List.range c.oddsites).map fun k => c.sitelist (c.evensites + k)

/-- Variables of the first pass over the sites (lattice.cpp:649-682). -/
structure Pass1 where
  neighb : ℕ → ℕ
  rank : ℕ
  fromEven : ℕ
  fromOdd : ℕ
  toEven : ℕ
  toOdd : ℕ

/-- One site of the first pass (lattice.cpp:651-681). `from_node.rank` and `to_node.rank` are set
together, so one variable is kept. -/
def pass1Step {n : ℕ} (lay : Layout n) (r : ℕ) (d : Dir n) (s : Pass1) (i : ℕ) : Pass1 :=
  let ni := lay.nodeinfo r
  let l := ni.coord i
  let ln := lay.neighbour l d
  if ni.isOnNode ln then
    { s with neighb := Function.update s.neighb i (ni.siteIndex ln) }
  else
    { neighb := Function.update s.neighb i ni.volume
      rank := if s.rank = r then lay.nodeRank ln else s.rank
      fromEven := if l.parity = .even then s.fromEven + 1 else s.fromEven
      fromOdd := if l.parity = .even then s.fromOdd else s.fromOdd + 1
      toEven := if ln.parity = .even then s.toEven + 1 else s.toEven
      toOdd := if ln.parity = .even then s.toOdd else s.toOdd + 1 }

/-- First pass (lattice.cpp:640-682); `init()` sets all counters to zero and the rank to
`myrank` (lattice.h:211-216). The freshly allocated neighbour array is arbitrary; 0 here. -/
def pass1 {n : ℕ} (lay : Layout n) (r : ℕ) (d : Dir n) : Pass1 :=
  (List.range (lay.nodeinfo r).volume).foldl (pass1Step lay r d)
    ⟨fun _ => 0, r, 0, 0, 0, 0⟩

/-- Variables of the second pass (lattice.cpp:701-724). -/
structure Pass2 where
  neighb : ℕ → ℕ
  sitelist : ℕ → ℕ
  toEven : ℕ
  toOdd : ℕ
  fromEven : ℕ
  fromOdd : ℕ

/-- One site of the second pass (lattice.cpp:704-723). `fromEvens`, `toEvens` are the totals
`from_node.evensites`, `to_node.evensites` of the first pass. -/
def pass2Step {n : ℕ} (lay : Layout n) (r : ℕ) (d : Dir n) (cOffset fromEvens toEvens : ℕ)
    (s : Pass2) (i : ℕ) : Pass2 :=
  let ni := lay.nodeinfo r
  if s.neighb i = ni.volume then
    let l := ni.coord i
    let ln := lay.neighbour l d
    { neighb := Function.update s.neighb i
        (if l.parity = .even then cOffset + s.fromEven else cOffset + fromEvens + s.fromOdd)
      fromEven := if l.parity = .even then s.fromEven + 1 else s.fromEven
      fromOdd := if l.parity = .even then s.fromOdd else s.fromOdd + 1
      sitelist := Function.update s.sitelist
        (if ln.parity = .even then s.toEven else s.toOdd + toEvens) i
      toEven := if ln.parity = .even then s.toEven + 1 else s.toEven
      toOdd := if ln.parity = .even then s.toOdd else s.toOdd + 1 }
  else s

/-- Second pass (lattice.cpp:693-725). It is skipped when `to_node.sites = 0`. -/
def pass2 {n : ℕ} (lay : Layout n) (r : ℕ) (d : Dir n) (cOffset : ℕ) : Pass2 :=
  let p := pass1 lay r d
  let s0 : Pass2 := ⟨p.neighb, fun _ => 0, 0, 0, 0, 0⟩
  if 0 < p.toEven + p.toOdd then
    (List.range (lay.nodeinfo r).volume).foldl
      (pass2Step lay r d cOffset p.fromEven p.toEven) s0
  else s0

/-- `c_offset` at the start of direction number `k` (lattice.cpp:628, 736): it begins at the node
volume and advances by `from_node.sites` of each direction. -/
def cOffset {n : ℕ} (lay : Layout n) (r : ℕ) : ℕ → ℕ
  | 0 => (lay.nodeinfo r).volume
  | k + 1 =>
    if h : k < 2 * n then
      let p := pass1 lay r ⟨k, h⟩
      cOffset lay r k + (p.fromEven + p.fromOdd)
    else cOffset lay r k

/-- `mynode.field_alloc_size` (lattice.cpp:744). -/
def fieldAllocSize {n : ℕ} (lay : Layout n) (r : ℕ) : ℕ := cOffset lay r (2 * n)

/-- `neighb[d]` on rank `r`. -/
def neighb {n : ℕ} (lay : Layout n) (r : ℕ) (d : Dir n) : ℕ → ℕ :=
  (pass2 lay r d (cOffset lay r d.val)).neighb

/-- `nn_comminfo[d].from_node` on rank `r`. -/
def fromNode {n : ℕ} (lay : Layout n) (r : ℕ) (d : Dir n) : CommNode :=
  let p := pass1 lay r d
  { rank := p.rank, sites := p.fromEven + p.fromOdd, evensites := p.fromEven,
    oddsites := p.fromOdd, buffer := cOffset lay r d.val, sitelist := fun _ => 0 }

/-- `nn_comminfo[d].to_node` on rank `r`: it is filled in the iteration of the opposite direction
(`nn_comminfo[-d].to_node`, lattice.cpp:641). `buffer` stays 0. -/
def toNode {n : ℕ} (lay : Layout n) (r : ℕ) (d : Dir n) : CommNode :=
  let p := pass1 lay r (oppDir d)
  { rank := p.rank, sites := p.toEven + p.toOdd, evensites := p.toEven, oddsites := p.toOdd,
    buffer := 0, sitelist := (pass2 lay r (oppDir d) (cOffset lay r (oppDir d).val)).sitelist }

/-- Memory of a field on one rank: `field_alloc_size` elements addressed by index. -/
abbrev Mem (V : Type) := ℕ → V

/-- The message rank `s` sends to rank `r` in a gather from direction `d` (field_comm.h:548-577
with `gather_comm_elements`): posted only if `to_node.rank` is another rank. `none` means rank
`s` sends nothing to `r`. -/
def sentMessage {n : ℕ} {V : Type} (lay : Layout n) (mem : ℕ → Mem V) (d : Dir n) (par : Parity)
    (s r : ℕ) : Option (List V) :=
  let t := toNode lay s d
  if t.rank ≠ s ∧ t.rank = r then some ((t.getSitelist par).map (mem s)) else none

/-- Consecutive elements written into memory from an offset on. -/
def placeAt {V : Type} (mem : Mem V) (off : ℕ) (l : List V) : Mem V :=
  fun i => if h : off ≤ i ∧ i - off < l.length then l[i - off]'h.2 else mem i

/-- Memory of rank `r` after the gather of (`d`, `par`) has been waited for
(field_comm.h:523-546, 655-676). `none`: the receive was posted but the partner sent nothing (hang)
or a message of a different length (MPI error or stale halo). -/
def gatherResult {n : ℕ} {V : Type} (lay : Layout n) (mem : ℕ → Mem V) (d : Dir n) (par : Parity)
    (r : ℕ) : Option (Mem V) :=
  let f := fromNode lay r d
  if f.rank ≠ r then
    match sentMessage lay mem d par f.rank r with
    | some l => if l.length = f.nSites par then some (placeAt (mem r) (f.offset par) l) else none
    | none => none
  else some (mem r)

end Hila
