import Mathlib.Data.List.Basic
import Verif.Model.GpuPool

/-!
# What a program expects of the memory pool
-/

namespace Hila

/-- The state before the first call: the static variables (memory_pool2.cpp:51-65, 284) are zero, there are no descriptors yet; the fields of descriptors to come have
any values. -/
def GStart (s : GPool) : Prop :=
  s.started = false ∧ s.unused = none ∧ s.count = 0 ∧ s.memory = none ∧ s.freeHead = none ∧ s.useHead = none ∧ s.total = 0 ∧ s.used = 0 ∧ s.slabs = []

/-- What a program does with the pool: it asks for so many bytes, or gives back an address. -/
inductive GOp
  | alloc (req : ℕ)
  | free (a : ℕ)

/-- One call. Besides the pool there is the list of the allocations in use, as the program sees them: address and size asked for. `some none` is the end of the program
with a message. -/
def gpStep (sys : ℕ → ℕ) (mem : ℕ) (st : GPool × List (ℕ × ℕ)) : GOp → Option (Option (GPool × List (ℕ × ℕ)))
  | .alloc req => (gpAlloc sys mem st.1 req).map fun x => x.2.map fun a => (x.1, (a, req) :: st.2)
  | .free a => (gpFree st.1 a).map fun x => x.map fun s => (s, st.2.filter fun l => l.1 ≠ a)

/-- The calls one after the other, as long as the program runs. -/
def gpRun (sys : ℕ → ℕ) (mem : ℕ) : List GOp → GPool × List (ℕ × ℕ) → Option (Option (GPool × List (ℕ × ℕ)))
  | [], st => some (some st)
  | op :: ops, st => (gpStep sys mem st op).bind fun x => match x with
    | none => some none
    | some st => gpRun sys mem ops st

/-- The intervals of addresses do not meet. -/
def Apart (x y : ℕ × ℕ) : Prop := x.1 + x.2 ≤ y.1 ∨ y.1 + y.2 ≤ x.1

/-- The first interval lies in the second. -/
def Inside (x y : ℕ × ℕ) : Prop := y.1 ≤ x.1 ∧ x.1 + x.2 ≤ y.1 + y.2

/-- The system never hands out the same memory twice. -/
def SysOk (sys : ℕ → ℕ) (mem : ℕ) (s : GPool) (ops : List GOp) : Prop :=
  ∀ pre, pre <+: ops → ∀ st, gpRun sys mem pre (s, []) = some (some st) → st.1.slabs.Pairwise Apart

/-- The memory that an allocation takes: its size, rounded up to a multiple of 256. -/
def takes (l : ℕ × ℕ) : ℕ × ℕ := (l.1, gpRound l.2)

/-- An interval of unused memory. -/
def IsGap (areas live : List (ℕ × ℕ)) (x : ℕ × ℕ) : Prop := 0 < x.2 ∧ (∃ y ∈ areas, Inside x y) ∧ ∀ l ∈ live, Apart x (takes l)

/-- An interval of unused memory that cannot be made larger. -/
def IsMaxGap (areas live : List (ℕ × ℕ)) (x : ℕ × ℕ) : Prop := IsGap areas live x ∧ ∀ y, IsGap areas live y → Inside x y → y = x

/-- The parts of the slabs that the pool uses: all but less than 256 bytes at their ends. -/
def UsableParts (areas slabs : List (ℕ × ℕ)) : Prop := List.Forall₂ (fun a s => a.1 = s.1 ∧ a.2 ≤ s.2 ∧ s.2 < a.2 + 256) areas slabs

end Hila
