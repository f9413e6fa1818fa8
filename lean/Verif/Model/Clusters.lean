import Verif.Model.Gather
import Verif.Model.SiteSelect

/-!
# Model of the cluster finder (plumbing/clusters.h)

Labels are `uint64_t`, modelled as natural numbers: a site index below `2^54` with the type in the
8 bits above it. A type field has values 0…255, the range given in the documentation of `find`.
-/

namespace Hila

variable {n : ℕ}

/-- `CLUSTER_BACKGROUND_` (clusters.h:118). -/
def clBackground : ℕ := 255

/-- `set_cl_label` (clusters.h:120-129). -/
def setClLabel (L : Site n) (c : Site n) (type : ℕ) : ℕ :=
  if type = clBackground then clBackground <<< 54 else siteIndexValue L c ||| (type <<< 54)

/-- `get_cl_label_type` (clusters.h:132-134). -/
def clLabelType (v : ℕ) : ℕ := 255 &&& (v >>> 54)

/-- The first statement of `make_labels` (clusters.h:344). -/
def initLabels (L : Site n) (type : Site n → ℕ) : Site n → ℕ := fun c => setClLabel L c (type c)

/-- The label read as `labels[X + d]`. A neighbour on another rank is read from the halo, gathered
before the loop over the sites began; a neighbour on the same rank is read from the memory that the
loop is changing, possibly by another thread. `useOld` tells which of the two values is seen. -/
def readLabel (lay : Layout n) (old cur : Site n → ℕ) (useOld : Site n → Dir n → Bool) (c : Site n)
    (d : Dir n) : ℕ :=
  if useOld c d then old (lay.neighbour c d) else cur (lay.neighbour c d)

/-- One direction of the loop body (clusters.h:378-384); the second component is `changed`. -/
def relabelDir (lay : Layout n) (old : Site n → ℕ) (useOld : Site n → Dir n → Bool) (c : Site n)
    (type0 : ℕ) (s : (Site n → ℕ) × ℕ) (d : Dir n) : (Site n → ℕ) × ℕ :=
  let label1 := readLabel lay old s.1 useOld c d
  if type0 = clLabelType label1 ∧ s.1 c > label1 then (Function.update s.1 c label1, s.2 + 1) else s

/-- The loop body at one site (clusters.h:375-386). -/
def relabelSite (lay : Layout n) (old : Site n → ℕ) (useOld : Site n → Dir n → Bool)
    (s : (Site n → ℕ) × ℕ) (c : Site n) : (Site n → ℕ) × ℕ :=
  if clLabelType (s.1 c) ≠ clBackground then
    (List.finRange (2 * n)).foldl (relabelDir lay old useOld c (clLabelType (s.1 c))) s
  else s

/-- One `onsites(par)` loop (clusters.h:374-387): the sites of the parity on all ranks, in the order
in which their bodies run. -/
def relabelLoop (lay : Layout n) (order : List (Site n)) (useOld : Site n → Dir n → Bool)
    (s : (Site n → ℕ) × ℕ) : (Site n → ℕ) × ℕ :=
  order.foldl (relabelSite lay s.1 useOld) s

/-- The order of the sites and the reads of one pass through the `do` loop. -/
structure RelabelSchedule (n : ℕ) where
  evenOrder : List (Site n)
  evenOld : Site n → Dir n → Bool
  oddOrder : List (Site n)
  oddOld : Site n → Dir n → Bool

/-- One pass through the `do` loop (clusters.h:349-391; `comm_interval` is 1, so the first branch is
never taken): `changed = 0`, the loop over the even and then over the odd sites. -/
def relabelPass (lay : Layout n) (sch : RelabelSchedule n) (labels : Site n → ℕ) :
    (Site n → ℕ) × ℕ :=
  relabelLoop lay sch.oddOrder sch.oddOld (relabelLoop lay sch.evenOrder sch.evenOld (labels, 0))

/-- The labels after `k` passes. -/
def relabelIter (lay : Layout n) (sch : ℕ → RelabelSchedule n) (labels : Site n → ℕ) :
    ℕ → Site n → ℕ
  | 0 => labels
  | k + 1 => (relabelPass lay (sch k) (relabelIter lay sch labels k)).1

/-- `make_labels` (clusters.h:338-394) ends after pass number `k`, counted from 0: the passes before
changed some label and pass `k` did not (`while (changed.value() > 0)`). -/
def RelabelEnds (lay : Layout n) (sch : ℕ → RelabelSchedule n) (labels : Site n → ℕ) (k : ℕ) :
    Prop :=
  (∀ j < k, (relabelPass lay (sch j) (relabelIter lay sch labels j)).2 > 0) ∧
    (relabelPass lay (sch k) (relabelIter lay sch labels k)).2 = 0

/-- `make_local_clist` on the sorted buffer (clusters.h:546-553): run lengths until the first
background label. The inner `for` is `takeWhile`. -/
def runLengths : List ℕ → List (ℕ × ℕ)
  | [] => []
  | x :: xs =>
    if clLabelType x = clBackground then []
    else (x, 1 + (xs.takeWhile (· == x)).length) :: runLengths (xs.dropWhile (· == x))
  termination_by l => l.length
  decreasing_by
    have := (List.dropWhile_suffix (l := xs) (· == x)).length_le
    simp only [List.length_cons]
    omega

/-- `make_local_clist` (clusters.h:538-554); `std::sort` is a sort. -/
def localClist (buf : List ℕ) : List (ℕ × ℕ) :=
  runLengths (buf.mergeSort (fun a b => decide (a ≤ b)))

/-- The merge of two cluster lists (clusters.h:437-457). -/
def mergeClist : List (ℕ × ℕ) → List (ℕ × ℕ) → List (ℕ × ℕ)
  | [], b => b
  | a, [] => a
  | (la, sa) :: a, (lb, sb) :: b =>
    if la < lb then (la, sa) :: mergeClist a ((lb, sb) :: b)
    else if la = lb then (la, sa + sb) :: mergeClist a b
    else (lb, sb) :: mergeClist ((la, sa) :: a) b
  termination_by a b => a.length + b.length

/-- One step of the merge of the lists of `nn` ranks (clusters.h:424-463): the sends and receives of
a step are matched pairwise. -/
def mergeStep (nn step : ℕ) (cl : ℕ → List (ℕ × ℕ)) : ℕ → List (ℕ × ℕ) := fun r =>
  if r % (2 * step) = step then []
  else if r % (2 * step) = 0 ∧ r + step < nn then mergeClist (cl r) (cl (r + step))
  else cl r

/-- `for (int step = 1; step < nn; step *= 2)` (clusters.h:424). A number of iterations `fuel`
at least `nn` never limits the loop. -/
def mergeSteps (nn : ℕ) : ℕ → ℕ → (ℕ → List (ℕ × ℕ)) → ℕ → List (ℕ × ℕ)
  | 0, _, cl => cl
  | fuel + 1, step, cl =>
    if step < nn then mergeSteps nn fuel (step * 2) (mergeStep nn step cl) else cl

/-- `classify` (clusters.h:406-466): the local lists of the labels on each rank, the merge, and the
broadcast of the list of rank 0 to all. -/
def classify (nn : ℕ) (buf : ℕ → List ℕ) : ℕ → List (ℕ × ℕ) := fun _ =>
  mergeSteps nn nn 1 (fun r => localClist (buf r)) 0

/-- `cluster_ref::area` (clusters.h:176-194): the loop over the sites of a rank, and the sum over
ranks (C10). -/
def clusterArea (lay : Layout n) (nn : ℕ) (order : ℕ → List (Site n)) (labels : Site n → ℕ)
    (lbl : ℕ) : ℕ :=
  ((List.range nn).map fun r => (order r).foldl (fun area c =>
    if labels c = lbl then
      (List.finRange (2 * n)).foldl (fun area d =>
        if labels (lay.neighbour c d) ≠ lbl then area + 1 else area) area
    else area) 0).sum

/-- `Clusters::find(link)` (clusters.h:295-305): the type field made from the links. `link d` is
the field `link[d]` for the `n` up-directions `e_d`. -/
def linkTypes (lay : Layout n) (link : Fin n → Site n → ℕ) : Site n → ℕ := fun c =>
  (List.finRange n).foldl (fun f d =>
    if link d c ≠ 0 ∨ link d (lay.neighbour c (oppDir (upDir d))) ≠ 0 then 1 else f) clBackground

end Hila
