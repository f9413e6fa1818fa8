import Verif.Model.Gather
import Mathlib.Algebra.BigOperators.Group.Finset.Basic
import Mathlib.Algebra.Ring.Defs

/-!
# Reductions

Models `Reduction<T>` (`/repo/libraries/plumbing/reduction.h`), `ReductionVector<T>`
(`/repo/libraries/plumbing/reductionvector.h`), the code generated around loops that add to ordinary
variables (`/repo/hilapp/src/codegen.cpp` 525-625 with `com_mpi.cpp` 61-142), and
`Field::minmax` (`reduction.h` 320-389).

Values are taken from a commutative monoid: the order in which MPI adds the contributions, which
matters for rounding, is not modelled. All flags are set by collective calls and are therefore
equal on all ranks. `N` is the number of ranks, ranks are `0 .. N-1`.
-/

namespace Hila

open BigOperators

/-- Member variables of `Reduction<T>` (reduction.h:17-31): `val` on every rank, the flags, and
`pend`, the content that `val` gets when the communication in progress completes. -/
structure RedState (V : Type) where
  val : ℕ → V
  commOn : Bool
  pend : ℕ → V
  allreduce : Bool
  nonblocking : Bool
  delayed : Bool
  delayOn : Bool

/-- Default construction (reduction.h:21-28, 98-101). -/
def RedState.init {V : Type} [Zero V] : RedState V :=
  ⟨fun _ => 0, false, fun _ => 0, true, false, false, false⟩

/-- `wait()` (reduction.h:85-93). -/
def RedState.wait {V : Type} (s : RedState V) : RedState V :=
  if s.commOn then { s with val := s.pend, commOn := false } else s

/-- Result of the MPI reduction with sum (or product) `tot`: with allreduce on all ranks, otherwise
on rank 0 only, the other ranks keep their value (reduction.h:51-77). -/
def reduced {V : Type} (allreduce : Bool) (tot : V) (val : ℕ → V) : ℕ → V :=
  fun r => if allreduce ∨ r = 0 then tot else val r

/-- `do_reduce_operation(MPI_SUM)` (reduction.h:35-80). -/
def RedState.doReduce {V : Type} [AddCommMonoid V] (N : ℕ) (s : RedState V) : RedState V :=
  let s := s.wait
  let res := reduced s.allreduce (∑ r ∈ Finset.range N, s.val r) s.val
  if s.nonblocking then { s with commOn := true, pend := res } else { s with val := res }

/-- `start_reduce()` (reduction.h:252-263). `is_delayed_sum` never becomes false: product reduction
is commented out. -/
def RedState.startReduce {V : Type} [AddCommMonoid V] (N : ℕ) (s : RedState V) : RedState V :=
  if s.commOn then s
  else if s.delayOn then { s with delayOn := false }.doReduce N
  else s

/-- `reduce()` (reduction.h:266-269). -/
def RedState.reduce {V : Type} [AddCommMonoid V] (N : ℕ) (s : RedState V) : RedState V :=
  (s.startReduce N).wait

/-- `value()` on rank `r` (reduction.h:149-152). -/
def RedState.value {V : Type} [AddCommMonoid V] (N : ℕ) (s : RedState V) (r : ℕ) : V :=
  (s.reduce N).val r

/-- `operator=` (reduction.h:164-177). -/
def RedState.assign {V : Type} [Zero V] (s : RedState V) (v : V) : RedState V :=
  { s.wait with val := fun r => if r = 0 then v else 0 }

/-- `reduce_sum_node(v)` (reduction.h:205-224); `c r` is the sum of the contributions of the sites
of rank `r`, collected by the generated loop starting from 0 (codegen.cpp:525-560). -/
def RedState.sumNode {V : Type} [AddCommMonoid V] (N : ℕ) (s : RedState V) (c : ℕ → V) :
    RedState V :=
  let s := s.wait
  let s := { s with val := fun r => if r = 0 ∨ s.delayed then s.val r + c r else c r }
  if s.delayed then { s with delayOn := true } else s.doReduce N

/-- What a program can do with a reduction variable. -/
inductive RedOp (V : Type) where
  | allreduce (b : Bool)
  | nonblocking (b : Bool)
  | delayed (b : Bool)
  /-- assignment outside of loops -/
  | assign (v : V)
  /-- `+= b` outside of loops, executed by all ranks -/
  | plus (b : V)
  /-- a site loop with contributions `c r` on rank `r` -/
  | loop (c : ℕ → V)
  /-- `start_reduce()` -/
  | start
  /-- `reduce()` or `value()` -/
  | reduce

/-- One operation. `none`: `+=` modifies the variable while MPI is using it (reduction.h:185-187
does not wait). -/
def RedState.step {V : Type} [AddCommMonoid V] (N : ℕ) (s : RedState V) :
    RedOp V → Option (RedState V)
  | .allreduce b => some { s with allreduce := b }
  | .nonblocking b => some { s with nonblocking := b }
  | .delayed b => some { s with delayed := b }
  | .assign v => some (s.assign v)
  | .plus b => if s.commOn then none else some { s with val := fun r => s.val r + b }
  | .loop c => some (s.sumNode N c)
  | .start => some (s.startReduce N)
  | .reduce => some (s.reduce N)

/-- A history of operations. -/
def RedState.run {V : Type} [AddCommMonoid V] (N : ℕ) (s : RedState V) :
    List (RedOp V) → Option (RedState V)
  | [] => some s
  | op :: ops => (s.step N op).bind fun s' => RedState.run N s' ops

/-- The sum a rank collects in a loop over parity `par` adding `g` of each slot: the generated loop
runs from `loop_begin` to `loop_end` (codegen_cpu.cpp; the same range as in C01). -/
def nodeSum {n : ℕ} {V : Type} [AddCommMonoid V] (lay : Layout n) (par : Parity) (mem : ℕ → Mem V)
    (r : ℕ) : V :=
  ∑ i ∈ Finset.Ico ((lay.nodeinfo r).loopBegin par) ((lay.nodeinfo r).loopEnd par), mem r i

/-- `Field::sum(par, allreduce)` on rank `r` (reduction.h:286-294). -/
def fieldSum {n : ℕ} {V : Type} [AddCommMonoid V] (lay : Layout n) (mem : ℕ → Mem V) (par : Parity)
    (allreduce : Bool) (r : ℕ) : V :=
  (({ (RedState.init : RedState V) with allreduce := allreduce }.sumNode lay.numNodes
    (nodeSum lay par mem)).value lay.numNodes) r

/-! ### Reduction vectors -/

/-- Member variables of `ReductionVector<T>` (reductionvector.h:65-80). The value type is the whole
vector (operations are element-wise). `is_delayed_sum` is never assigned in the class, so it keeps
its initial value true. -/
structure VecState (V : Type) where
  val : ℕ → V
  commOn : Bool
  pend : ℕ → V
  allreduce : Bool
  nonblocking : Bool
  delayed : Bool
  delayOn : Bool

/-- Construction with all elements `v` (reductionvector.h:155-156), on all ranks. -/
def VecState.init {V : Type} (v : V) : VecState V :=
  ⟨fun _ => v, false, fun _ => v, true, false, false, false⟩

/-- `wait()` (reductionvector.h:273-282). -/
def VecState.wait {V : Type} (s : VecState V) : VecState V :=
  if s.commOn then { s with val := s.pend, commOn := false } else s

/-- `reduce_operation(MPI_SUM)` or, if `prod`, `MPI_PROD` (reductionvector.h:83-133). -/
def VecState.doReduce {V : Type} [CommSemiring V] (N : ℕ) (prod : Bool) (s : VecState V) :
    VecState V :=
  let s := s.wait
  let tot := if prod then ∏ r ∈ Finset.range N, s.val r else ∑ r ∈ Finset.range N, s.val r
  let res := reduced s.allreduce tot s.val
  if s.nonblocking then { s with commOn := true, pend := res } else { s with val := res }

/-- `start_reduce()` (reductionvector.h:285-294): always a sum, see above. -/
def VecState.startReduce {V : Type} [CommSemiring V] (N : ℕ) (s : VecState V) : VecState V :=
  if s.delayOn then { s with delayOn := false }.doReduce N false else s

/-- `reduce()` (reductionvector.h:297-300). -/
def VecState.reduce {V : Type} [CommSemiring V] (N : ℕ) (s : VecState V) : VecState V :=
  (s.startReduce N).wait

/-- `init_sum()`, `init_product()` before the loop (reductionvector.h:220-235). -/
def VecState.initLoop {V : Type} [CommSemiring V] (prod : Bool) (s : VecState V) : VecState V :=
  let s := s.wait
  { s with val := fun r => if r ≠ 0 ∧ s.delayOn = false then (if prod then 1 else 0) else s.val r }

/-- A site loop: `init_*`, the loop body combining the contributions of rank `r`, then
`reduce_sum()` or `reduce_product()` (reductionvector.h:239-270, codegen.cpp:538-546, 614-624).
`none` is the failed assertion about mixing sums and products. -/
def VecState.loop {V : Type} [CommSemiring V] (N : ℕ) (prod : Bool) (s : VecState V) (c : ℕ → V) :
    Option (VecState V) :=
  let s := s.initLoop prod
  let s := { s with val := fun r => if prod then s.val r * c r else s.val r + c r }
  if s.delayed then
    if s.delayOn && prod then none
    else some { s with delayOn := true }
  else some (s.doReduce N prod)

/-- What a program can do with a reduction vector. -/
inductive VecOp (V : Type) where
  | allreduce (b : Bool)
  | nonblocking (b : Bool)
  | delayed (b : Bool)
  | assign (v : V)
  | sum (c : ℕ → V)
  | product (c : ℕ → V)
  | start
  | wait
  | reduce

/-- Outcomes that are not a state: a data race with MPI (`operator=`, reductionvector.h:206-215, does
not wait), or a failed assertion. -/
inductive VecFail where
  | race | assertion
  deriving DecidableEq

/-- One operation. -/
def VecState.step {V : Type} [CommSemiring V] (N : ℕ) (s : VecState V) :
    VecOp V → Except VecFail (VecState V)
  | .allreduce b => .ok { s with allreduce := b }
  | .nonblocking b => .ok { s with nonblocking := b }
  | .delayed b => .ok { s with delayed := b }
  | .assign v => if s.commOn then .error .race else .ok { s with val := fun _ => v }
  | .sum c => match s.loop N false c with
    | some s' => .ok s'
    | none => .error .assertion
  | .product c => match s.loop N true c with
    | some s' => .ok s'
    | none => .error .assertion
  | .start => .ok (s.startReduce N)
  | .wait => .ok s.wait
  | .reduce => .ok (s.reduce N)

/-- A history of operations. -/
def VecState.run {V : Type} [CommSemiring V] (N : ℕ) (s : VecState V) :
    List (VecOp V) → Except VecFail (VecState V)
  | [] => .ok s
  | op :: ops => match s.step N op with
    | .ok s' => VecState.run N s' ops
    | .error e => .error e

/-! ### Sums into ordinary variables -/

/-- The buffers of `hila_reduce_double_setup` on one rank (com_mpi.cpp:61-75): allocated length,
contents, target addresses, entries in use, and an error flag for accesses beyond the length. -/
structure RedQueue (V : Type) where
  size : ℕ
  buf : ℕ → V
  ptrs : ℕ → ℕ
  used : ℕ
  bad : Bool

/-- `hila_reduce_double_setup(d, n)` (com_mpi.cpp:61-75; the float version 77-91 is the same).
`mem` is the memory of the rank, `d` an address. -/
def RedQueue.setup {V : Type} (mem : ℕ → V) (q : RedQueue V) (d n : ℕ) : RedQueue V :=
  let size := if q.size < n + q.used then n + q.used + 2 else q.size
  (List.range n).foldl (fun (q : RedQueue V) i =>
      { q with
        buf := Function.update q.buf (q.used + i) (mem (d + i))
        ptrs := Function.update q.ptrs (q.used + i) (d + i)
        bad := q.bad || decide (q.size ≤ q.used + i) })
    { q with size := size } |> fun q => { q with used := q.used + n }

/-- `hila_reduce_sums()` (com_mpi.cpp:93-142): rank `r`'s memory afterwards. MPI requires the same
count on all ranks; `none` otherwise or after an access out of bounds. -/
def reduceSums {V : Type} [AddCommMonoid V] (N : ℕ) (allreduceOn : Bool) (q : ℕ → RedQueue V)
    (mem : ℕ → ℕ → V) : Option (ℕ → ℕ → V) :=
  if (List.range N).any fun r => (q r).bad || decide ((q r).used ≠ (q 0).used) then none
  else some fun r =>
    if allreduceOn ∨ r = 0 then
      (List.range (q r).used).foldl
        (fun m i => Function.update m ((q r).ptrs i) (∑ k ∈ Finset.range N, (q k).buf i)) (mem r)
    else mem r

/-- Code generated around a loop with sum reductions into ordinary variables
(codegen.cpp:581-611). `vars` lists address and number of elements of the temporary of each
variable, `old r v k` element `k` of the variable before the loop on rank `r`; `mem r` holds the
temporaries with the contributions of rank `r`. The result is what the variables contain after the
loop. -/
def plainReduction {V : Type} [AddCommMonoid V] (N : ℕ) (allreduceOn : Bool)
    (vars : List (ℕ × ℕ)) (old : ℕ → ℕ → V) (q0 : ℕ → RedQueue V) (mem : ℕ → ℕ → V) :
    Option (ℕ → ℕ → V) :=
  -- rank 0 adds the old values; `old r a` is the old value belonging to temporary address `a`
  let mem1 : ℕ → ℕ → V := fun r a =>
    if r = 0 ∧ vars.any (fun v => decide (v.1 ≤ a ∧ a < v.1 + v.2)) then mem r a + old r a
    else mem r a
  let q : ℕ → RedQueue V := fun r => vars.foldl (fun q v => q.setup (mem1 r) v.1 v.2) (q0 r)
  reduceSums N allreduceOn q mem1

/-! ### Minimum and maximum -/

/-- Comparison used by `minmax`: `(is_min && a < b) || (!is_min && a > b)`. -/
def better {V : Type} [LT V] [DecidableLT V] (isMin : Bool) (a b : V) : Bool :=
  if isMin then decide (a < b) else decide (b < a)

/-- The loop of one thread (reduction.h:338-351) over its sites; starts from the initial value and
the coordinate `loc0` (`CoordinateVector(0)`). -/
def threadMinmax {S V : Type} [LT V] [DecidableLT V] (isMin : Bool) (initial : V) (loc0 : S)
    (sites : List (S × V)) : V × S :=
  sites.foldl (fun acc x => if better isMin x.2 acc.1 then (x.2, x.1) else acc) (initial, loc0)

/-- The threads of one rank pass the critical section in the order of the list
(reduction.h:352-356). `none` for the location means that the caller's variable is unchanged. -/
def nodeMinmax {S V : Type} [LT V] [DecidableLT V] (isMin : Bool) (initial : V) (loc0 : S)
    (threads : List (List (S × V))) : V × Option S :=
  threads.foldl (fun acc t =>
    let x := threadMinmax isMin initial loc0 t
    if better isMin x.1 acc.1 then (x.1, some x.2) else acc) (initial, none)

/-- `MPI_MINLOC`/`MPI_MAXLOC` over ranks `0 .. k`: best value, lowest rank in case of a tie
(reduction.h:376-382). -/
def locReduce {V : Type} [LT V] [DecidableLT V] (isMin : Bool) (v : ℕ → V) : ℕ → V × ℕ
  | 0 => (v 0, 0)
  | k + 1 =>
    let p := locReduce isMin v k
    if better isMin (v (k + 1)) p.1 then (v (k + 1), k + 1) else p

/-- `Field::minmax` (reduction.h:320-389), CPU version: `threads r` lists the sites visited by each
thread of rank `r` with their values. `limMax`, `limMin` are `std::numeric_limits<T>::max()` and
`::min()`. The result on every rank: the value and the location. NaN is not modelled. -/
def minmax {S V : Type} [LT V] [DecidableLT V] (limMax limMin : V) (loc0 : S) (N : ℕ)
    (isMin : Bool) (threads : ℕ → List (List (S × V))) : V × Option S :=
  let initial := if isMin then limMax else limMin
  let node := fun r => nodeMinmax isMin initial loc0 (threads r)
  if N > 1 then
    let p := locReduce isMin (fun r => (node r).1) (N - 1)
    (p.1, (node p.2).2)
  else node 0

end Hila
