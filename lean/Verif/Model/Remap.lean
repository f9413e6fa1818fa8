import Verif.Model.Layout

/-!
# Map of the logical node numbers to ranks (libraries/plumbing/map_node_layout.cpp)
-/

namespace Hila

/-- Variables of the loop that chooses the block size (map_node_layout.cpp:58-66). -/
structure BlockSizes (n : ℕ) where
  nblocks : ℕ
  blocksize : Site n
  blockdivs : Site n
  found : Bool

/-- `for (div = 2; div <= 5; div++) if (...) break;` (map_node_layout.cpp:70-73); `none` is `div == 6`. -/
def blockDivisor (nblocks divs : ℕ) : Option ℕ :=
  [2, 3, 4, 5].find? fun div => decide (nblocks % div = 0 ∧ divs % div = 0)

/-- One direction (map_node_layout.cpp:68-80). -/
def blockSizeStep {n : ℕ} (s : BlockSizes n) (d : Fin n) : BlockSizes n :=
  match blockDivisor s.nblocks (s.blockdivs d) with
  | none => s
  | some div => ⟨s.nblocks / div, Function.update s.blocksize d (s.blocksize d * div),
      Function.update s.blockdivs d (s.blockdivs d / div), true⟩

/-- The `while (found && nblocks > 1)` loop (map_node_layout.cpp:64-81). `fuel` bounds the turns; `nblocks` decreases
in every turn but the last, so `nblocks + 1` turns are enough (`blockSizeLoop_end`). -/
def blockSizeLoop {n : ℕ} : ℕ → BlockSizes n → BlockSizes n
  | 0, s => s
  | fuel + 1, s =>
    if s.found ∧ s.nblocks > 1 then
      blockSizeLoop fuel ((List.finRange n).foldl blockSizeStep ⟨s.nblocks, s.blocksize, s.blockdivs, false⟩)
    else s

/-- Block sizes for `NODE_LAYOUT_BLOCK = B` (map_node_layout.cpp:58-81). `lattice->nodes.n_divisions` in line 60 is
read as `this->n_divisions`: the function is called only for the lattice that is being set up. -/
def blockSizes {n : ℕ} (B : ℕ) (ndiv : Site n) : BlockSizes n :=
  blockSizeLoop (B + 1) ⟨B, fun _ => 1, ndiv, true⟩

/-- The running sum `i += c[d] * m; m *= s[d];` (map_node_layout.cpp:113-121). -/
def runIndex {n : ℕ} (s c : Site n) : ℕ :=
  ((List.finRange n).foldl (fun (a : ℕ × ℕ) d => (a.1 + c d * a.2, a.2 * s d)) (0, 1)).1

/-- New rank of logical node `i` (map_node_layout.cpp:96-121, 126): `lcoord`, `bcoord`, `icoord`, `bi*nblocks + ii`. -/
def remapIndex {n : ℕ} (ndiv : Site n) (b : BlockSizes n) (i : ℕ) : ℕ :=
  let lcoord := digits ndiv i
  let bcoord : Site n := fun d => lcoord d / b.blocksize d
  let icoord : Site n := fun d => lcoord d % b.blocksize d
  runIndex b.blockdivs bcoord * ((List.finRange n).foldl (fun m d => m * b.blocksize d) 1) + runIndex b.blocksize icoord

/-- `map_array[i]` and `map_inverse[...]` (map_node_layout.cpp:126-127); `none` is a write outside the arrays, which
have `number` elements. -/
def remapStep {n : ℕ} (number : ℕ) (ndiv : Site n) (b : BlockSizes n) (m : (ℕ → ℕ) × (ℕ → ℕ)) (i : ℕ) :
    Option ((ℕ → ℕ) × (ℕ → ℕ)) :=
  if i < number ∧ remapIndex ndiv b i < number then
    some (Function.update m.1 i (remapIndex ndiv b i), Function.update m.2 (remapIndex ndiv b i) i)
  else none

/-- `create_remap` for `NODE_LAYOUT_BLOCK` (map_node_layout.cpp:54-129). `junk` is the contents of the new arrays. -/
def createRemap {n : ℕ} (B number : ℕ) (ndiv : Site n) (junk : (ℕ → ℕ) × (ℕ → ℕ)) : Option ((ℕ → ℕ) × (ℕ → ℕ)) :=
  (List.range number).foldlM (remapStep number ndiv (blockSizes B ndiv)) junk

/-- `create_remap` for `NODE_LAYOUT_TRIVIAL` (map_node_layout.cpp:24-36): `remap` and `inverse_remap` return their
argument. -/
def trivialRemap : (ℕ → ℕ) × (ℕ → ℕ) := (fun i => i, fun i => i)

end Hila
