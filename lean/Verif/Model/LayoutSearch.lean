import Verif.Model.Layout
import Mathlib.Data.Fintype.Basic

/-!
# Choice of the node division

Models `lattice_struct::setup_layout` of `/repo/libraries/plumbing/setup_layout_generic.cpp` (standard layout, also used
for GPUs). Integers are unbounded, the printed information is left out. `hila::finishrun` ends the program. The
layouts `setup_layout_simple.cpp` and `setup_layout_vector.cpp` are not modelled.
-/

namespace Hila

open BigOperators

/-- setup_layout_generic.cpp:11-12. -/
def layoutPrimes : List ℕ := [2, 3, 5, 7, 11, 13, 17, 19, 23, 29, 31, 37]

/-- `while (i % prime[n] == 0) { i /= prime[n]; nfactors[n]++; }` (setup_layout_generic.cpp:43-46) with a bound on the
number of turns: the rest of `i` and the number of factors. -/
def divideOut (p : ℕ) : ℕ → ℕ → ℕ × ℕ
  | 0, i => (i, 0)
  | fuel + 1, i => if i % p = 0 then let r := divideOut p fuel (i / p); (r.1, r.2 + 1) else (i, 0)

/-- The loop over the primes (setup_layout_generic.cpp:40-47): the rest of `i` and the prime factors in the order in
which the slicing loop (93-94) takes them, the largest first. The bound `i` on the turns suffices. -/
def factorise : List ℕ → ℕ → ℕ × List ℕ
  | [], i => (i, [])
  | p :: ps, i =>
    let r := divideOut p i i
    let s := factorise ps r.1
    (s.1, s.2 ++ List.replicate r.2 p)

/-- `while ((n * cosize) % nn != 0) n++;` (setup_layout_generic.cpp:65-66) with a bound on the number of turns. -/
def ghostedSize (nn cosize : ℕ) : ℕ → ℕ → ℕ
  | 0, n => n
  | fuel + 1, n => if (n * cosize) % nn ≠ 0 then ghostedSize nn cosize fuel (n + 1) else n

/-- `l_volume / l_size[d]` (setup_layout_generic.cpp:63). -/
def cosize {n : ℕ} (L : Site n) (d : Fin n) : ℕ := (∏ e, L e) / L d

/-- `nsize[d]` (setup_layout_generic.cpp:62-69); at most `nn` steps are needed. -/
def nsize {n : ℕ} (nn : ℕ) (L : Site n) (d : Fin n) : ℕ := ghostedSize nn (cosize L d) nn (L d)

/-- `ghosts[d]` before the loop (setup_layout_generic.cpp:68). -/
def ghosts0 {n : ℕ} (nn : ℕ) (L : Site n) (d : Fin n) : ℕ := (nsize nn L d - L d) * cosize L d

/-- `foralldir(j) if (ghosts[mdir] > ghosts[j]) mdir = j;` (setup_layout_generic.cpp:78). -/
def chooseDir {n : ℕ} (ghosts : Fin n → ℕ) (mdir : Fin n) : Fin n :=
  (List.finRange n).foldl (fun m j => if ghosts m > ghosts j then j else m) mdir

/-- `nodesiz` and `nodes.n_divisions`. -/
structure Slices (n : ℕ) where
  nodesiz : Site n
  ndiv : Site n

/-- The largest divisible size (setup_layout_generic.cpp:100-103). -/
def maxDivisible {n : ℕ} (s : Slices n) (p : ℕ) : ℕ :=
  (List.finRange n).foldl (fun m d => if s.nodesiz d > m ∧ s.nodesiz d % p = 0 then s.nodesiz d else m) 1

/-- The direction to slice (setup_layout_generic.cpp:113-122): from the last direction down, first among those divided
already. `none` is `dir < 0`. -/
def sliceDir {n : ℕ} (s : Slices n) (p : ℕ) : Option (Fin n) :=
  let msize := maxDivisible s p
  match (List.finRange n).reverse.find?
    (fun d => decide (s.nodesiz d = msize ∧ s.ndiv d > 1 ∧ s.nodesiz d % p = 0)) with
  | some d => some d
  | none => (List.finRange n).reverse.find? fun d => decide (s.nodesiz d = msize ∧ s.nodesiz d % p = 0)

/-- One slice (setup_layout_generic.cpp:94-133); `none` is the exit marked "CANNOT HAPPEN". -/
def slice {n : ℕ} (s : Slices n) (p : ℕ) : Option (Slices n) :=
  match sliceDir s p with
  | none => none
  | some d => some ⟨Function.update s.nodesiz d (s.nodesiz d / p), Function.update s.ndiv d (s.ndiv d * p)⟩

/-- One attempt (setup_layout_generic.cpp:83-134) with uneven division in direction `mdir`. -/
def attempt {n : ℕ} (nn : ℕ) (L : Site n) (factors : List ℕ) (mdir : Fin n) : Option (Slices n) :=
  factors.foldlM slice ⟨fun d => if d = mdir then nsize nn L d else L d, fun _ => 1⟩

/-- Variables of the `do ... while` loop (setup_layout_generic.cpp:73-74). -/
structure SearchState (n : ℕ) where
  ghosts : Fin n → ℕ
  mdir : Fin n
  secondtime : Bool

/-- What a turn of the loop can do: end the program, leave the loop, or go round again. -/
inductive Turn (n : ℕ) where
  | finishrun
  | leave (mdir : Fin n) (s : Slices n)
  | again (s : SearchState n)

/-- One turn of the `do ... while (secondtime)` loop (setup_layout_generic.cpp:75-150). -/
def searchTurn {n : ℕ} (nn : ℕ) (L : Site n) (factors : List ℕ) (s : SearchState n) : Turn n :=
  let mdir := chooseDir s.ghosts s.mdir
  match attempt nn L factors mdir with
  | none => .finishrun
  | some sl =>
    let fail := decide (∃ d, sl.nodesiz d < 2)
    if fail ∧ ¬ s.secondtime then .again ⟨Function.update s.ghosts mdir (2 ^ 62), mdir, true⟩
    else if fail then .finishrun
    else if s.secondtime then .again ⟨s.ghosts, mdir, true⟩
    else .leave mdir sl

/-- The loop after at most `k` turns; `again` means that it still runs. -/
def searchLoop {n : ℕ} (nn : ℕ) (L : Site n) (factors : List ℕ) : ℕ → SearchState n → Turn n
  | 0, s => .again s
  | k + 1, s =>
    match searchTurn nn L factors s with
    | .again s' => searchLoop nn L factors k s'
    | t => t

/-- `setup_layout` (setup_layout_generic.cpp:19-153) up to the choice of the division, after at most `k` turns. -/
def setupLayout {n : ℕ} [NeZero n] (nn : ℕ) (L : Site n) (k : ℕ) : Turn n :=
  let f := factorise layoutPrimes nn
  if f.1 ≠ 1 then .finishrun else searchLoop nn L f.2 k ⟨ghosts0 nn L, 0, false⟩

end Hila
