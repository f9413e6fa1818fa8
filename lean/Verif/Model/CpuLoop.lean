import Verif.Model.HaloState

/-!
# The site loop that hilapp generates for processors

Models the code around the body of a site loop (`/repo/hilapp/src/codegen_cpu.cpp` 13-375) for several
fields at once: gathers are started, a first pass goes over the sites that need none of the messages under
way, then the messages are waited for and a second pass does the other sites. The gathers themselves are
those of `Model/HaloState`.

A site of a pass is done in one step; the order of the sites of a rank is arbitrary, which covers the plain
loop and `omp parallel for`. Left out: the paths for `BOUNDARY_LAYER_LAYOUT` and OpenACC, vectorised loops,
and boundary conditions other than periodic.
-/

namespace Hila
section
variable {Φ S D R V : Type} [DecidableEq Φ] [DecidableEq S] [DecidableEq D] [DecidableEq R]
  (g : Geo S D R) (bit : D → ℕ)

/-- A site loop: parity, the gathers that the analysis asks for, the references `f[X + d]` in the body,
the fields assigned to, and the body: from the site, the values of all fields there and the values of the
references to new values of the assigned fields. -/
structure SiteLoop (Φ S D V : Type) where
  par : Parity
  gathers : List (Φ × D)
  reads : List (Φ × D)
  writes : List Φ
  body : S → (Φ → V) → List V → Φ → V

/-- What `start_gather` returns (field_comm.h:487-505, 587): 0 if there is nothing to wait for, else the
bit of the direction. -/
def startMask (comm : Bool) (st : Parity → GStatus) (p : Parity) (d : D) : BitVec 8 :=
  if isGathered st p || !comm then 0#8 else 1#8 <<< bit d

/-- `_dir_mask_ |= f.start_gather(d, p)` on all ranks (codegen_cpu.cpp:46-47, 63-65). -/
def gatherStep (p : Parity) (a : (Φ → HState S D R V) × (R → BitVec 8)) (fd : Φ × D) :
    (Φ → HState S D R V) × (R → BitVec 8) :=
  (Function.update a.1 fd.1 (start g (a.1 fd.1) fd.2 p),
    fun r => a.2 r ||| startMask bit (g.comm r fd.2) (((a.1 fd.1).loc r).status fd.2) p fd.2)

/-- `wait_arr_` of a site (lattice.cpp:764-775). An index of `neighb` beyond the volume is a neighbour on
another rank. -/
def waitBits (dirs : List D) (c : S) : BitVec 8 :=
  dirs.foldl (fun w d => if g.owner (g.nb d c) = g.owner c then w else w ||| 1#8 <<< bit d) 0#8

/-- `f.wait_gather(d, p)` after the first pass, on the ranks that do not leave the loop before
(codegen_cpu.cpp:337-361). -/
def waitStep (m : R → BitVec 8) (p : Parity) (s : Φ → HState S D R V) (fd : Φ × D) :
    Φ → HState S D R V :=
  Function.update s fd.1 { s fd.1 with
    loc := fun r => if m r = 0#8 then (s fd.1).loc r else waitLoc g (s fd.1) fd.2 p r }

/-- A message under way may change this halo slot at any time. -/
def unstable (l : Loc S D V) (d : D) (c : S) : Bool :=
  (l.inflight d .even && Parity.visits .even (g.parity c)) ||
  (l.inflight d .odd && Parity.visits .odd (g.parity c)) ||
  (l.inflight d .all && Parity.visits .all (g.parity c))

/-- What a read of a halo slot gives: anything if a message is under way. -/
def haloNow (garb : R → Φ → D → S → V) (s : Φ → HState S D R V) (r : R) (f : Φ) (d : D) (c : S) : V :=
  if unstable g ((s f).loc r) d c then garb r f d c else ((s f).loc r).halo d c

/-- The body at one site (codegen_cpu.cpp:222-330): own values and neighbours are read, new values are
stored. -/
def visitSite (L : SiteLoop Φ S D V) (halo : Φ → D → S → V) (v : Φ → S → V) (c : S) : Φ → S → V :=
  fun f x =>
    if f ∈ L.writes ∧ x = c then
      L.body c (fun f => v f c)
        (L.reads.map fun fd =>
          if g.owner (g.nb fd.2 c) = g.owner c then v fd.1 (g.nb fd.2 c) else halo fd.1 fd.2 c) f
    else v f x

/-- One pass on a rank (codegen_cpu.cpp:162-170): the sites with
`((wait_arr_[i] & _dir_mask_) != 0) == _hila_wait_i`. -/
def passRun (dirs : List D) (L : SiteLoop Φ S D V) (wait : Bool) (m : BitVec 8) (sites : List S)
    (halo : Φ → D → S → V) (v : Φ → S → V) : Φ → S → V :=
  (sites.filter fun c => (waitBits g bit dirs c &&& m != 0#8) == wait).foldl (visitSite g L halo) v

/-- The generated loop on all ranks. `order w r` are the sites `[_hila_loop_begin, _hila_loop_end)` of
rank `r` in the order in which pass `w` does them. A rank whose mask is 0 leaves after the first pass.
`mark_changed` for assigned fields follows (codegen.cpp:513-522). -/
def cpuLoop (dirs : List D) (L : SiteLoop Φ S D V) (order : Bool → R → List S)
    (garb : R → Φ → D → S → V) (s : Φ → HState S D R V) : Φ → HState S D R V :=
  let a := L.gathers.foldl (gatherStep g bit L.par) (s, fun _ => 0#8)
  let s1 := a.1
  let m := a.2
  let s2 := L.gathers.foldl (waitStep g m L.par) s1
  let v := fun r =>
    let v1 := passRun g bit dirs L false (m r) (order false r) (haloNow g garb s1 r) fun f => (s f).val
    if m r = 0#8 then v1 else passRun g bit dirs L true (m r) (order true r) (haloNow g garb s2 r) v1
  fun f =>
    let t := { s2 f with val := fun c => v (g.owner c) f c }
    if f ∈ L.writes then markChanged g dirs L.par t else t

/-- The loop without `EVEN_SITES_FIRST` (codegen_cpu.cpp:80-92, 172-186): gathers are started as before,
but `generate_wait_loops` is then switched off and no `wait_gather` is generated. All sites of the rank are
gone through; `fixed` says that hilapp knows the parity to be `ALL`, otherwise the body is guarded by
`X.parity() == par`. -/
def cpuLoopPlain (dirs : List D) (L : SiteLoop Φ S D V) (fixed : Bool) (order : R → List S)
    (garb : R → Φ → D → S → V) (s : Φ → HState S D R V) : Φ → HState S D R V :=
  let s1 := (L.gathers.foldl (gatherStep g bit L.par) (s, fun _ => 0#8)).1
  let v := fun r =>
    ((order r).filter fun c => fixed || g.parity c == L.par).foldl
      (visitSite g L (haloNow g garb s1 r)) fun f => (s f).val
  fun f =>
    let t := { s1 f with val := fun c => v (g.owner c) f c }
    if f ∈ L.writes then markChanged g dirs L.par t else t

end
end Hila
