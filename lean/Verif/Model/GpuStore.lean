import Mathlib.Data.Nat.Notation
import Mathlib.Data.List.FinRange
import Mathlib.Logic.Function.Basic

/-!
# Fields in the memory of graphics processors (plumbing/backend_gpu/field_storage_backend.h)

A field of elements with `k` numbers each is stored number by number: first the first numbers of all sites,
then the second ones, and so on. Indices are 32-bit unsigned numbers. Kernels run their threads in any
order; a thread is not interrupted by others (no thread of the kernels below reads or writes what another
one writes, see the theorems).
-/

namespace Hila

/-- An allocation of `size` elements; the contents beyond the size are meaningless. -/
structure DevBuf (α : Type) where
  size : ℕ
  val : ℕ → α

/-- A store; outside the allocation it is undefined. -/
def DevBuf.write {α : Type} (b : DevBuf α) (j : ℕ) (x : α) : Option (DevBuf α) :=
  if j < b.size then some ⟨b.size, Function.update b.val j x⟩ else none

/-- A read. -/
def DevBuf.read {α : Type} (b : DevBuf α) (j : ℕ) : Option α := if j < b.size then some (b.val j) else none

/-- `e * field_alloc_size + i` with `unsigned` operands (field_storage_backend.h:51, 75). -/
def soaAt (A e i : ℕ) : ℕ := (e * A + i) % 4294967296

/-- `field_storage<T>::get` (field_storage_backend.h:40-62): `k` is `sizeof(T) / sizeof(base_t)`, an element
is given by its numbers. The loop only reads, so that its order does not matter. -/
def soaGet {α : Type} {k : ℕ} (b : DevBuf α) (A i : ℕ) : Option (Fin k → α) :=
  if ∀ e : Fin k, soaAt A e.val i < b.size then some fun e => b.val (soaAt A e.val i) else none

/-- `field_storage<T>::set` (field_storage_backend.h:66-77). -/
def soaSet {α : Type} {k : ℕ} (b : DevBuf α) (A i : ℕ) (v : Fin k → α) : Option (DevBuf α) :=
  (List.finRange k).foldlM (fun b e => b.write (soaAt A e.val i) (v e)) b

/-- `N_blocks` of the launches (field_storage_backend.h:160, 205, 274, 325, 370, 422). -/
def soaBlocks (n threads : ℕ) : ℕ := n / threads + 1

/-- A kernel: the threads in the order `ord`. -/
def storeKernel {S : Type} (body : ℕ → S → Option S) (ord : List ℕ) (s : S) : Option S :=
  ord.foldlM (fun s t => body t s) s

/-- `gather_elements_kernel` and `gather_elements_negated_kernel` (field_storage_backend.h:139-145, 176-183):
thread `t` copies the element of site `sites t`, changed by `f` (the identity or minus). The index list has
`n` entries and is read only for `t < n`. -/
def gatherElThread {α : Type} {k : ℕ} (field : DevBuf α) (A n : ℕ) (sites : ℕ → ℕ)
    (f : (Fin k → α) → Fin k → α) (t : ℕ) (out : DevBuf (Fin k → α)) : Option (DevBuf (Fin k → α)) :=
  if t < n then (soaGet field A (sites t)).bind fun v => out.write t (f v) else some out

/-- `gather_comm_elements_kernel` and its negated form (field_storage_backend.h:220-252): the buffer of the
message is also stored number by number, `fp[Index + n * e]`. -/
def gatherCommThread {α : Type} {k : ℕ} (field : DevBuf α) (A n : ℕ) (sites : ℕ → ℕ)
    (f : (Fin k → α) → Fin k → α) (t : ℕ) (out : DevBuf α) : Option (DevBuf α) :=
  if t < n then
    (soaGet field A (sites t)).bind fun v =>
      (List.finRange k).foldlM (fun o e => o.write ((t + n * e.val) % 4294967296) (f v e)) out
  else some out

/-- `place_elements_kernel` (field_storage_backend.h:301-307). -/
def placeElThread {α : Type} {k : ℕ} (buffer : DevBuf (Fin k → α)) (A n : ℕ) (sites : ℕ → ℕ) (t : ℕ)
    (field : DevBuf α) : Option (DevBuf α) :=
  if t < n then (buffer.read t).bind fun v => soaSet field A (sites t) v else some field

/-- `place_comm_elements_kernel` (field_storage_backend.h:388-402). -/
def placeCommThread {α : Type} (k : ℕ) (buffer : DevBuf α) (A n offset : ℕ) (t : ℕ) (field : DevBuf α) :
    Option (DevBuf α) :=
  if t < n then
    if ∀ e : Fin k, (t + n * e.val) % 4294967296 < buffer.size then
      soaSet field A ((offset + t) % 4294967296) fun e : Fin k => buffer.val ((t + n * e.val) % 4294967296)
    else none
  else some field

/-- `set_local_boundary_elements_kernel` (field_storage_backend.h:334-343); `neg` is the unary minus of the
elements. -/
def localBoundThread {α : Type} {k : ℕ} (A n offset : ℕ) (sites : ℕ → ℕ) (neg : (Fin k → α) → Fin k → α) (t : ℕ)
    (field : DevBuf α) : Option (DevBuf α) :=
  if t < n then (soaGet field A (sites t)).bind fun v => soaSet field A ((offset + t) % 4294967296) (neg v)
  else some field

/-- `special_boundaries[dir]`: number of sites, first place in the field and sites whose values are copied
(lattice.h:252-257). -/
structure BoundaryList where
  nEven : ℕ
  nOdd : ℕ
  offset : ℕ
  moveIndex : ℕ → ℕ

/-- The parities of `set_local_boundary_elements`. -/
inductive BoundPar
  | even | odd | all

/-- Number and start of the part of the list for a parity (field_storage_backend.h:352-361). -/
def BoundaryList.part (s : BoundaryList) : BoundPar → ℕ × ℕ
  | .odd => (s.nOdd, s.nEven)
  | .even => (s.nEven, 0)
  | .all => (s.nEven + s.nOdd, 0)

/-- `set_local_boundary_elements` for antiperiodic boundaries (field_storage_backend.h:346-384), with the
threads in the order `ord`. -/
def gpuLocalBoundary {α : Type} {k : ℕ} (A : ℕ) (s : BoundaryList) (par : BoundPar)
    (neg : (Fin k → α) → Fin k → α) (ord : List ℕ) (field : DevBuf α) : Option (DevBuf α) :=
  storeKernel (localBoundThread A (s.part par).1 ((s.offset + (s.part par).2) % 4294967296)
    (fun t => s.moveIndex ((s.part par).2 + t)) neg) ord field

end Hila
