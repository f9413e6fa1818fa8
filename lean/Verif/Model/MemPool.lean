import Mathlib.Data.List.Basic

/-!
# Model of `hila::memory_pool` (memory_pool.h, memory_pool.cpp)

Addresses and sizes are natural numbers. The system allocator is the environment: the address of a
block it hands out is an argument of the operation. Statistics other than `total_size` are left out.
`size_t` overflow of `2 * req_size` is not modelled.
-/

namespace Hila

/-- `struct allocation` (memory_pool.h:28-32). -/
structure PBlock where
  ptr : ℕ
  size : ℕ
  inUse : Bool
  deriving DecidableEq

/-- The pool: `blocklist`, `p.first_free_block`, `p.total_size` (memory_pool.h:16-38). -/
structure Pool where
  blocks : List PBlock
  firstFree : ℕ
  total : ℕ
  deriving DecidableEq

/-- A new pool. -/
def Pool.new : Pool := ⟨[], 0, 0⟩

/-- `MIN_ALLOC_SIZE` (memory_pool.cpp:34) and lines 39-41. -/
def poolSize (req : ℕ) : ℕ := if req < 128 then 128 else req

/-- Result of the search: candidate block (index, size) and first free index seen. -/
structure PSearch where
  found : Option (ℕ × ℕ)
  first : Option ℕ

/-- The search loop (memory_pool.cpp:50-72) over the remaining blocks, the first of which has index
`i`. -/
def poolSearch (req : ℕ) : List PBlock → ℕ → PSearch → PSearch
  | [], _, acc => acc
  | b :: bs, i, acc =>
    if b.inUse then poolSearch req bs (i + 1) acc
    else
      let first := match acc.first with
        | none => some i
        | some f => some f
      if b.size = req then ⟨some (i, b.size), first⟩
      else if b.size > req ∧ b.size < 2 * req then
        let found := match acc.found with
          | none => some (i, b.size)
          | some f => if f.2 > b.size then some (i, b.size) else some f
        poolSearch req bs (i + 1) ⟨found, first⟩
      else poolSearch req bs (i + 1) ⟨acc.found, first⟩

/-- Mark block `i`. -/
def setInUse (l : List PBlock) (i : ℕ) (b : Bool) : List PBlock :=
  l.modify i fun x => { x with inUse := b }

/-- The new value of `p.first_free_block` (memory_pool.cpp:76-84): `old` is the current one, `len` the
length of the list. -/
def newFirstFree (r : PSearch) (len old : ℕ) : ℕ :=
  let first := match r.first with
    | some f => f
    | none => match r.found with
      | some f => f.1
      | none => len
  if first > old then first else old

/-- `memory_pool::alloc` (memory_pool.cpp:37-129). `newPtr` is the address that the system returns
if it is asked. Result: the address given to the user. `none`: the search starts beyond the end of
the list (undefined behaviour). -/
def Pool.alloc (s : Pool) (request newPtr : ℕ) : Option (Pool × ℕ) :=
  let req := poolSize request
  if s.firstFree > s.blocks.length then none
  else
    let r := poolSearch req (s.blocks.drop s.firstFree) s.firstFree ⟨none, none⟩
    let ff := newFirstFree r s.blocks.length s.firstFree
    match r.found with
    | some (i, _) =>
      some (⟨setInUse s.blocks i true, ff, s.total⟩, ((s.blocks[i]?).map PBlock.ptr).getD 0)
    | none =>
      some (⟨s.blocks ++ [⟨newPtr, req, true⟩], ff, s.total + req⟩, newPtr)

/-- Ways the program is stopped by the pool. -/
inductive PoolErr where
  | alreadyFreed
  | unknownPointer
  deriving DecidableEq

/-- Index of the last block with this address: the backward search of memory_pool.cpp:135-136. -/
def lastIndex (l : List PBlock) (ptr : ℕ) : Option ℕ :=
  ((List.range l.length).reverse).find? fun i => decide ((l[i]?).map PBlock.ptr = some ptr)

/-- `memory_pool::free` (memory_pool.cpp:131-156). -/
def Pool.free (s : Pool) (ptr : ℕ) : Except PoolErr Pool :=
  match lastIndex s.blocks ptr with
  | none => .error .unknownPointer
  | some i =>
    if (s.blocks[i]?).map PBlock.inUse = some false then .error .alreadyFreed
    else .ok { s with blocks := setInUse s.blocks i false,
                      firstFree := if i < s.firstFree then i else s.firstFree }

/-- `memory_pool::purge` (memory_pool.cpp:160-195). On GPU builds free blocks are returned to the
system and the blocks in use moved to the front. On CPU builds (`gpu = false`) the statement
`free(it->ptr)` on line 183 calls the member function `memory_pool::free` for a block that is not in
use, which stops the program. `first_free_block` is not changed. -/
def Pool.purge (gpu : Bool) (s : Pool) : Except PoolErr Pool :=
  if gpu = false ∧ s.blocks.any (fun b => !b.inUse) then .error .alreadyFreed
  else .ok { s with blocks := s.blocks.filter (fun b => b.inUse),
                    total := s.total - ((s.blocks.filter fun b => !b.inUse).map PBlock.size).sum }

end Hila
