import Mathlib.Data.Nat.Notation
import Mathlib.Logic.Function.Basic

/-!
# The memory pool for graphics processors

libraries/plumbing/backend_gpu/memory_pool2.cpp. Block descriptors are numbered; their fields are functions of the number, pointers to descriptors are `Option ℕ` with
`none` for `nullptr`. Following a null pointer, or a loop that does not end, is `none`. Addresses and sizes are natural numbers, floating point numbers are exact. The
fields of fresh descriptors have any values. The statistics of the searches are left out.
-/

namespace Hila

open Function

/-- `struct block` (memory_pool2.cpp:43-49) for all descriptors, and the static variables (51-65). `count` is the number of descriptors that were taken from the
system; `slabs` are the results of cudaMalloc so far, with the sizes asked for. -/
structure GPool where
  ptr : ℕ → ℕ
  next : ℕ → Option ℕ
  prev : ℕ → Option ℕ
  up : ℕ → Option ℕ
  down : ℕ → Option ℕ
  size : ℕ → ℕ
  isFree : ℕ → Bool
  memory : Option ℕ
  freeHead : Option ℕ
  useHead : Option ℕ
  unused : Option ℕ
  freeLen : ℕ
  used : ℕ
  maxUsed : ℕ
  total : ℕ
  started : Bool
  count : ℕ
  slabs : List (ℕ × ℕ)

/-- `alloc_more_block_descriptors` (memory_pool2.cpp:70-83) and the assignment of its result (87). -/
def gpMore (s : GPool) : GPool :=
  { s with up := fun i => if s.count ≤ i ∧ i < s.count + 999 then some (i + 1) else if i = s.count + 999 then none else s.up i
           unused := some s.count, count := s.count + 1000 }

/-- `get_block_descriptor` (memory_pool2.cpp:85-94). -/
def gpGet (s : GPool) : Option (ℕ × GPool) :=
  let s := if s.unused = none then gpMore s else s
  s.unused.map fun r => (r, { s with unused := s.up r, ptr := update s.ptr r 0, up := update s.up r none, down := update s.down r none
                                     next := update s.next r none, prev := update s.prev r none })

/-- `release_block_descriptor` (memory_pool2.cpp:96-99). -/
def gpRelease (s : GPool) (p : ℕ) : GPool := { s with up := update s.up p s.unused, unused := some p }

/-- The size rounded to a multiple of `ALLOC_ALIGNMENT` (memory_pool2.cpp:40, 109-110, 293-296). -/
def gpRound (m : ℕ) : ℕ := if m % 256 ≠ 0 then m - m % 256 + 256 else m

/-- `gpu_memory_allocate` (memory_pool2.cpp:104-129); `sys k` is the address that the call number `k` of cudaMalloc returns. -/
def gpSlab (sys : ℕ → ℕ) (s : GPool) (m : ℕ) : ℕ × GPool :=
  (sys s.slabs.length, { s with total := s.total + gpRound m, slabs := s.slabs ++ [(sys s.slabs.length, gpRound m)] })

/-- `gpu_memory_pool_init` (memory_pool2.cpp:134-169) with `GPU_MEMORY_POOL_FRACTION` 0.2; `mem` is `gpu_total_memory`. -/
def gpInit (sys : ℕ → ℕ) (mem : ℕ) (s : GPool) : Option GPool :=
  let m := mem / 5
  let m := m - m % 256 + 256
  (gpGet s).map fun rs =>
    let b := rs.1
    let s := { rs.2 with memory := some b }
    let a := gpSlab sys s m
    { a.2 with ptr := update a.2.ptr b a.1, up := update a.2.up b none, down := update a.2.down b none, next := update a.2.next b none, prev := update a.2.prev b none
               size := update a.2.size b m, isFree := update a.2.isFree b true, freeHead := some b, useHead := none, freeLen := 1, maxUsed := 0, used := 0 }

/-- `if (at != nullptr) at->field = v;`. -/
def gpSet (field : ℕ → Option ℕ) (at' v : Option ℕ) : ℕ → Option ℕ :=
  match at' with
  | some q => update field q v
  | none => field

/-- `remove_from_list` (memory_pool2.cpp:178-185) for the list with the given head: the new `next`, `prev` and head. -/
def gpRemove (next prev : ℕ → Option ℕ) (head : Option ℕ) (p : ℕ) : (ℕ → Option ℕ) × (ℕ → Option ℕ) × Option ℕ :=
  let prev := gpSet prev (next p) (prev p)
  match prev p with
  | some r => (update next r (next p), prev, head)
  | none => (next, prev, next p)

/-- `insert_to_list_head` (memory_pool2.cpp:187-193). -/
def gpInsert (next prev : ℕ → Option ℕ) (head : Option ℕ) (p : ℕ) : (ℕ → Option ℕ) × (ℕ → Option ℕ) × Option ℕ :=
  let prev := gpSet prev head (some p)
  (update next p head, update prev p none, some p)

/-- `remove_from_list(p, &free_blocks)` and `free_list_size--`. -/
def gpUnfree (s : GPool) (p : ℕ) : GPool :=
  let l := gpRemove s.next s.prev s.freeHead p
  { s with next := l.1, prev := l.2.1, freeHead := l.2.2, freeLen := s.freeLen - 1 }

/-- `merge_block_down_free` (memory_pool2.cpp:200-215). -/
def gpMergeDown (s : GPool) (p : ℕ) : Option GPool :=
  (s.down p).map fun pd =>
    let s := { s with size := update s.size pd (s.size pd + s.size p), up := update s.up pd (s.up p) }
    let s := { s with down := gpSet s.down (s.up p) (some pd) }
    let s := if s.isFree p then gpUnfree s p else s
    gpRelease s p

/-- `merge_block_up_free` (memory_pool2.cpp:217-234). -/
def gpMergeUp (s : GPool) (p : ℕ) : Option GPool :=
  (s.up p).map fun pu =>
    let s := { s with size := update s.size pu (s.size pu + s.size p), ptr := update s.ptr pu (s.ptr p), down := update s.down pu (s.down p) }
    let s := match s.down p with
      | some q => { s with up := update s.up q (some pu) }
      | none => { s with memory := some pu }
    let s := if s.isFree p then gpUnfree s p else s
    gpRelease s p

/-- `split_free_block` (memory_pool2.cpp:237-255). -/
def gpSplit (s : GPool) (p req : ℕ) : Option (ℕ × GPool) :=
  (gpGet s).map fun rs =>
    let b := rs.1
    let s := rs.2
    let s := { s with up := update s.up b (s.up p), down := update s.down b (some p) }
    let s := { s with up := update s.up p (some b) }
    let s := { s with down := gpSet s.down (s.up b) (some b) }
    let s := { s with ptr := update s.ptr b (s.ptr p + s.size p - req), size := update s.size b req }
    (b, { s with size := update s.size p (s.size p - req), isFree := update s.isFree b false })

/-- `mark_block_free` (memory_pool2.cpp:257-262). -/
def gpMarkFree (s : GPool) (p : ℕ) : GPool :=
  let l := gpInsert s.next s.prev s.freeHead p
  { s with isFree := update s.isFree p true, next := l.1, prev := l.2.1, freeHead := l.2.2, freeLen := s.freeLen + 1 }

/-- The loop to the top of the memory (memory_pool2.cpp:271-273). -/
def gpTop (up : ℕ → Option ℕ) : ℕ → ℕ → Option ℕ
  | 0, _ => none
  | fuel + 1, b => match up b with
    | some c => gpTop up fuel c
    | none => some b

/-- `add_block_to_top` (memory_pool2.cpp:264-277). -/
def gpAddTop (s : GPool) (p : ℕ) : Option GPool :=
  let s := { s with up := update s.up p none }
  match s.memory with
  | none => some { s with memory := some p, down := update s.down p none }
  | some m => (gpTop s.up (s.count + 1) m).map fun b => { s with up := update s.up b (some p), down := update s.down p (some b) }

/-- The search in the list of free blocks (memory_pool2.cpp:303-321), with `found_match` and `ptr`. -/
def gpSearch (s : GPool) (req : ℕ) : ℕ → Option ℕ → Bool → Option ℕ → Option (Bool × Option ℕ)
  | 0, _, _, _ => none
  | _ + 1, none, found, best => some (found, best)
  | fuel + 1, some p, found, best =>
    if s.size p = req then some (true, some p)
    else if s.size p > req then
      (if found then best.map fun q => decide (s.size q > s.size p) else some true).bind fun better =>
        gpSearch s req fuel (s.next p) true (if better then some p else best)
    else gpSearch s req fuel (s.next p) found best

/-- A block of the right size is taken out of the free block `p` (memory_pool2.cpp:326-346). -/
def gpTake (s : GPool) (p req : ℕ) : Option (GPool × ℕ) :=
  (if s.size p > req then gpSplit s p req else some (p, let t := gpUnfree s p; { t with isFree := update t.isFree p false })).map fun ps =>
    let b := ps.1
    let s := ps.2
    let l := gpInsert s.next s.prev s.useHead b
    let s := { s with next := l.1, prev := l.2.1, useHead := l.2.2, used := s.used + req }
    ({ s with maxUsed := if s.used > s.maxUsed then s.used else s.maxUsed }, s.ptr b)

/-- More memory from the system (memory_pool2.cpp:354-367). -/
def gpExtend (sys : ℕ → ℕ) (s : GPool) (m : ℕ) : Option GPool :=
  (gpGet s).bind fun ps =>
    let s := { ps.2 with size := update ps.2.size ps.1 0, isFree := update ps.2.isFree ps.1 false }
    (gpAddTop s ps.1).bind fun s => (gpGet s).bind fun ps =>
      let a := gpSlab sys ps.2 m
      let s := { a.2 with ptr := update a.2.ptr ps.1 a.1, total := a.2.total + m, size := update a.2.size ps.1 m }
      (gpAddTop s ps.1).map fun s => gpMarkFree s ps.1

/-- `gpu_memory_pool_alloc` (memory_pool2.cpp:282-378) after the initialisation, with at most `depth` nested calls. The address is `none` if the program ends because
there is not enough memory. -/
def gpAllocRec (sys : ℕ → ℕ) (mem : ℕ) : ℕ → GPool → ℕ → Option (GPool × Option ℕ)
  | 0, _, _ => none
  | depth + 1, s, req =>
    let req := gpRound req
    (gpSearch s req (s.count + 1) s.freeHead false s.freeHead).bind fun r =>
      if r.1 then r.2.bind fun p => (gpTake s p req).map fun x => (x.1, some x.2)
      else
        let m := if mem / 5 > req then mem / 5 else req
        if 10 * s.total < 7 * mem ∧ 10 * (m + s.total) < 9 * mem then
          (gpExtend sys s m).bind fun s => gpAllocRec sys mem depth s req
        else some (s, none)

/-- `gpu_memory_pool_alloc` (memory_pool2.cpp:282-378). -/
def gpAlloc (sys : ℕ → ℕ) (mem : ℕ) (s : GPool) (req : ℕ) : Option (GPool × Option ℕ) :=
  (if s.started then some s else gpInit sys mem { s with started := true }).bind fun s => gpAllocRec sys mem 2 s req

/-- The search in the list of used blocks (memory_pool2.cpp:387-388). -/
def gpFind (s : GPool) (a : ℕ) : ℕ → Option ℕ → Option (Option ℕ)
  | 0, _ => none
  | _ + 1, none => some none
  | fuel + 1, some f => if s.ptr f = a then some (some f) else gpFind s a fuel (s.next f)

/-- `q != nullptr && q->is_free` (memory_pool2.cpp:398, 400, 403). -/
def gpIsFree (s : GPool) : Option ℕ → Bool
  | some q => s.isFree q
  | none => false

/-- The neighbours of the block `f` are joined to it if they are free (memory_pool2.cpp:396-408). -/
def gpJoin (s : GPool) (f : ℕ) : Option GPool :=
  let down := s.down f
  let up := s.up f
  if gpIsFree s down then (gpMergeDown s f).bind fun t => if gpIsFree t up then up.bind fun u => gpMergeDown t u else some t
  else if gpIsFree s up then gpMergeUp s f
  else some (gpMarkFree s f)

/-- `gpu_memory_pool_free` (memory_pool2.cpp:384-416). The state is `none` if the program ends because of an unknown pointer. -/
def gpFree (s : GPool) (a : ℕ) : Option (Option GPool) :=
  (gpFind s a (s.count + 1) s.useHead).bind fun r => match r with
    | none => some none
    | some f =>
      let l := gpRemove s.next s.prev s.useHead f
      let s := { s with next := l.1, prev := l.2.1, useHead := l.2.2, used := s.used - s.size f }
      (gpJoin s f).map some

end Hila
