import Verif.Model.Gather
import Verif.Model.HaloState
import Mathlib.Data.Fintype.Basic

/-!
# Blocked lattices

Models `can_block_by_factor`, `block_by_factor`, `setup_blocked_lattice` (`/repo/libraries/plumbing/lattice.cpp`
1042-1149), the handle `Lattice` (`lattice.h` 533-662), `Field::block_from`, `unblock_to` and
`block_to_current_lattice` (`field_comm.h` 1284-1456) and `GaugeField::block_gauge` (`gaugefield.h` 278-345).
A failed assertion, an access outside the buffer, the use of an element never written and
`hila::terminate` are all `none`.
-/

namespace Hila

/-- One `lattice_struct`: the layout and the index of `parent` in `hila::defined_lattices` (`none` is the null
pointer, lattice.cpp:43). -/
structure Lat (n : ℕ) where
  lay : Layout n
  parent : Option ℕ

/-- `hila::defined_lattices` and the position of the active lattice in it. -/
structure LatState (n : ℕ) where
  defined : List (Lat n)
  cur : ℕ

/-- After `lattice.setup`: the base lattice alone (lattice.cpp:25-60). -/
def LatState.init {n : ℕ} (lay : Layout n) : LatState n := ⟨[⟨lay, none⟩], 0⟩

/-- `can_block_by_factor` (lattice.cpp:1042-1059); `none` is the termination on a factor that is not positive. -/
def canBlock {n : ℕ} (L : Site n) (f : CV n) : Option Bool :=
  if ∃ d, f d ≤ 0 then none else some (decide (∀ d, (L d : ℤ) % f d = 0))

/-- The layout made by `setup_blocked_lattice` (lattice.cpp:1100-1128): own size, divisions and rank map of the
original lattice. -/
def blockedLayout {n : ℕ} (orig : Layout n) (size : Site n) : Layout n :=
  ⟨size, orig.ndiv, orig.remap, orig.invRemap⟩

/-- `block_by_factor` (lattice.cpp:1065-1094): the first lattice of the wanted size is used again, whatever it was
blocked from. -/
def blockByFactor {n : ℕ} (s : LatState n) (f : CV n) : Option (LatState n) :=
  match s.defined[s.cur]? with
  | none => none
  | some l =>
    match canBlock l.lay.L f with
    | none => none
    | some false => none
    | some true =>
      let blockvol : Site n := fun d => ((l.lay.L d : ℤ) / f d).toNat
      match s.defined.findIdx? fun m => decide (m.lay.L = blockvol) with
      | some i => some ⟨s.defined, i⟩
      | none => some ⟨s.defined ++ [⟨blockedLayout l.lay blockvol, some s.cur⟩], s.defined.length⟩

/-- Operations of a program on the handle `lattice`. -/
inductive LatOp (n : ℕ) where
  /-- `lattice.block(cv)` (lattice.h:611-614) -/
  | block (f : CV n)
  /-- `lattice.block(int)` (lattice.h:619-628) -/
  | blockInt (k : ℤ)
  /-- `lattice.unblock()` (lattice.h:634-642) -/
  | unblock
  /-- `lattice.switch_to(...)` (lattice.h:533-553); the argument must be a lattice that exists -/
  | switchTo (i : ℕ)
  /-- `lattice.switch_to_base()` (lattice.h:659-661) -/
  | switchToBase

/-- One operation. -/
def latStep {n : ℕ} (s : LatState n) : LatOp n → Option (LatState n)
  | .block f => blockByFactor s f
  | .blockInt k => if k = 0 ∨ k = 1 then some s else blockByFactor s fun _ => k
  | .unblock =>
    match s.defined[s.cur]? with
    | some ⟨_, some p⟩ => some ⟨s.defined, p⟩
    | _ => none
  | .switchTo i => if i < s.defined.length then some ⟨s.defined, i⟩ else none
  | .switchToBase => some ⟨s.defined, 0⟩

/-- A sequence of operations. -/
def latRun {n : ℕ} (s : LatState n) (ops : List (LatOp n)) : Option (LatState n) := ops.foldlM latStep s

/-- `l_size.element_div(...)` (field_comm.h:1316): the blocking factor found again from the two sizes. -/
def blockFactor {n : ℕ} (par blk : Layout n) : Site n := fun d => par.L d / blk.L d

/-- `cv.dot(size_factor)` for `cv = c - cvmin` (field_comm.h:1324-1325). The components of `cv` are `unsigned`:
a negative difference would wrap around, here `none`, as is an index outside the buffer of `mynode.volume` elements. -/
def bufIndex {n : ℕ} (ni : NodeInfo n) (c : Site n) : Option ℕ :=
  if ∃ d, c d < ni.min d then none
  else
    let k := ∑ d, (c d - ni.min d) * sizeFactor ni.size d
    if k < ni.volume then some k else none

/-- Body of the loop over the parent lattice (field_comm.h:1321-1327): `src i` is what is stored for site
number `i`. -/
def packStep {n : ℕ} {V : Type} (par blk : Layout n) (r : ℕ) (src : ℕ → V) (buf : ℕ → Option V) (i : ℕ) :
    Option (ℕ → Option V) :=
  let c := (par.nodeinfo r).coord i
  let f := blockFactor par blk
  if ∀ d, c d % f d = 0 then
    match bufIndex (blk.nodeinfo r) fun d => c d / f d with
    | some k => some (Function.update buf k (some (src i)))
    | none => none
  else some buf

/-- Body of the loop over the blocked lattice (field_comm.h:1333-1337). -/
def fillStep {n : ℕ} {V : Type} (blk : Layout n) (r : ℕ) (buf : ℕ → Option V) (dst : ℕ → V) (i : ℕ) :
    Option (ℕ → V) :=
  match bufIndex (blk.nodeinfo r) ((blk.nodeinfo r).coord i) with
  | some k =>
    match buf k with
    | some v => some (Function.update dst i v)
    | none => none
  | none => none

/-- The two loops of `block_from` on rank `r` (field_comm.h:1309-1340). `ordP` and `ordB` are the orders in which
the sites of the parent and of the blocked lattice are visited. -/
def packAndFill {n : ℕ} {V : Type} (par blk : Layout n) (r : ℕ) (ordP ordB : List ℕ) (src dst : ℕ → V) :
    Option (ℕ → V) :=
  match ordP.foldlM (packStep par blk r src) (fun _ => none) with
  | some buf => ordB.foldlM (fillStep blk r buf) dst
  | none => none

/-- `block_from` on rank `r` (field_comm.h:1284-1341) for two different lattices, the one of `orig` being the
parent. -/
def blockFrom {n : ℕ} {V : Type} (par blk : Layout n) (r : ℕ) (ordP ordB : List ℕ) (src dst : ℕ → V) :
    Option (ℕ → V) :=
  if (blk.nodeinfo r).volume = 0 then some dst else packAndFill par blk r ordP ordB src dst

/-- Body of the first loop of `unblock_to` (field_comm.h:1382-1386). -/
def collectStep {n : ℕ} {V : Type} (blk : Layout n) (r : ℕ) (src : ℕ → V) (buf : ℕ → Option V) (i : ℕ) :
    Option (ℕ → Option V) :=
  match bufIndex (blk.nodeinfo r) ((blk.nodeinfo r).coord i) with
  | some k => some (Function.update buf k (some (src i)))
  | none => none

/-- Body of the second loop of `unblock_to` (field_comm.h:1391-1397). -/
def spreadStep {n : ℕ} {V : Type} (par blk : Layout n) (r : ℕ) (buf : ℕ → Option V) (target : ℕ → V) (i : ℕ) :
    Option (ℕ → V) :=
  let c := (par.nodeinfo r).coord i
  let f := blockFactor par blk
  if ∀ d, c d % f d = 0 then
    match bufIndex (blk.nodeinfo r) fun d => c d / f d with
    | some k =>
      match buf k with
      | some v => some (Function.update target i v)
      | none => none
    | none => none
  else some target

/-- `unblock_to` on rank `r` (field_comm.h:1347-1402) for two different lattices. -/
def unblockTo {n : ℕ} {V : Type} (par blk : Layout n) (r : ℕ) (ordB ordP : List ℕ) (src target : ℕ → V) :
    Option (ℕ → V) :=
  if (blk.nodeinfo r).volume = 0 then some target
  else
    match ordB.foldlM (collectStep blk r src) (fun _ => none) with
    | some buf => ordP.foldlM (spreadStep par blk r buf) target
    | none => none

/-- The halo state of the target after `unblock_to`: the loop writing `target[X]` is followed by
`mark_changed(ALL)` (codegen.cpp:513-522), which a rank that returned early (field_comm.h:1367-1369) does not
call. `hasSites r` tells that rank `r` has sites of the blocked lattice, `new` are the values after the call. -/
def unblockMark {S D R V : Type} [DecidableEq D] [DecidableEq R] (g : Geo S D R) (dirs : List D)
    (hasSites : R → Bool) (new : S → V) (s : HState S D R V) : HState S D R V :=
  let m := markChanged g dirs .all ⟨new, s.loc⟩
  ⟨new, fun r => if hasSites r then m.loc r else s.loc r⟩

/-- A field on one rank: the lattice it belongs to and its values. -/
structure RankField (V : Type) where
  lat : ℕ
  mem : ℕ → V

/-- `block_to_current_lattice` on rank `r` (field_comm.h:1407-1456); `cur` is the active lattice. The memory after
`clear()` and the new allocation is `fresh`. -/
def blockToCurrent {n : ℕ} {V : Type} (s : LatState n) (r : ℕ) (ordP ordB : List ℕ) (fresh : ℕ → V)
    (a : RankField V) : Option (RankField V) :=
  if a.lat = s.cur then some a
  else
    match s.defined[s.cur]?, s.defined[a.lat]? with
    | some c, some t =>
      if c.parent ≠ some a.lat then none
      else if (c.lay.nodeinfo r).volume = 0 then some a
      else (packAndFill t.lay c.lay r ordP ordB a.mem fresh).map fun m => ⟨s.cur, m⟩
    | _, _ => none

/-- `block_gauge` for one direction on rank `r` (gaugefield.h:300-340). `link i` is `parent[d]` at site number `i`,
`next i` what the loop reads as `parent[d][X + d]`. -/
def blockGauge {n : ℕ} {V : Type} [Mul V] (par blk : Layout n) (r : ℕ) (d : Fin n) (ordP ordB : List ℕ)
    (link next dst : ℕ → V) : Option (ℕ → V) :=
  if ∃ b, 2 < blockFactor par blk b then none
  else if blockFactor par blk d = 1 then packAndFill par blk r ordP ordB link dst
  else packAndFill par blk r ordP ordB (fun i => link i * next i) dst

end Hila
