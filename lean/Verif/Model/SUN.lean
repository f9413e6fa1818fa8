import Verif.Model.Gauge
import Mathlib.Analysis.SpecialFunctions.Pow.Real
import Mathlib.Data.Matrix.Basis

/-!
# The algebra of SU(N) (libraries/datatypes/sun_matrix.h)

Numbers are real, `Complex<T>` is `ℂ`. Arrays have a size: a write or read outside is `none` (undefined behaviour), and
an element that has not been assigned is `none` too; a result with such an element is `none`.
-/

namespace Hila

/-- An array; `none` is an element that has not been assigned. -/
abbrev Buf (α : Type) := ℕ → Option α

/-- Write into an array of the given size. -/
def wr {α : Type} (size : ℕ) (b : Buf α) (k : ℕ) (v : α) : Option (Buf α) :=
  if k < size then some (Function.update b k (some v)) else none

/-- The first `m` elements if all of them have been assigned. -/
def collect {α : Type} [Inhabited α] (m : ℕ) (b : Buf α) : Option (Fin m → α) :=
  if ∀ l : Fin m, (b l).isSome then some fun l => (b l).getD default else none

variable {N : ℕ}

/-- `Algebra<SU<N,T>>`: a real vector of `N_a = N*N - 1` elements (sun_matrix.h:369-382). -/
abbrev Alg (N : ℕ) := Fin (N * N - 1) → ℝ

/-- The pairs of the double loop `for i < N-1, for j = i+1 .. N-1` in their order. The model also runs `i = N-1`, which
has no `j`. -/
def upperPairs (N : ℕ) : List (Fin N × Fin N) :=
  (List.finRange N).flatMap fun i => ((List.finRange N).filter fun j => i < j).map fun j => (i, j)

/-- The loop over the diagonal in `project_to_algebra_scaled` (sun_matrix.h:313-316). -/
noncomputable def projDiag (A : Mat N) (scf : ℝ) : List (Fin N) → ℝ → Buf ℝ → Option (Buf ℝ)
  | [], _, b => some b
  | i :: is, sum, b =>
    match wr (N * N - 1) b (i.val - 1) (scf * (sum - i.val * (A i i).im) / Real.sqrt (0.5 * i.val * (i.val + 1))) with
    | none => none
    | some b' => projDiag A scf is (sum + (A i i).im) b'

/-- The loop over the off-diagonal elements in `project_to_algebra_scaled` (sun_matrix.h:319-327). -/
noncomputable def projOff (A : Mat N) (scf : ℝ) : List (Fin N × Fin N) → ℕ → Buf ℝ → Option (Buf ℝ)
  | [], _, b => some b
  | (i, j) :: ps, k, b =>
    match wr (N * N - 1) b k (scf * (A i j - star (A j i)).re) with
    | none => none
    | some b' =>
      match wr (N * N - 1) b' (k + 1) (scf * (A i j - star (A j i)).im) with
      | none => none
      | some b'' => projOff A scf ps (k + 2) b''

/-- `project_to_algebra_scaled` (sun_matrix.h:308-331). -/
noncomputable def projectScaledRun (A : Mat N) (scf : ℝ) : Option (Alg N) :=
  match List.finRange N with
  | [] => none
  | z :: is =>
    match projDiag A scf is (A z z).im fun _ => none with
    | none => none
    | some b =>
      match projOff A scf (upperPairs N) (N - 1) b with
      | none => none
      | some b' => collect (N * N - 1) b'

/-- `project_to_algebra` (sun_matrix.h:281-306): the same statements without the factor. -/
noncomputable def projectRun (A : Mat N) : Option (Alg N) := projectScaledRun A 1

/-- The loop over the diagonal in `expand` (sun_matrix.h:469-477): the elements `d`. -/
noncomputable def expandDiag (c : Alg N) : List (Fin N) → Buf ℝ → Option (Buf ℝ)
  | [], d => some d
  | i :: is, d =>
    if h : i.val - 1 < N * N - 1 then
      let r := c ⟨i.val - 1, h⟩ * Real.sqrt (0.5 / (i.val * (i.val + 1)))
      let d' : Buf ℝ := fun j => if j < i.val then (d j).map (· + r) else d j
      expandDiag c is (Function.update d' i.val (some (-i.val * r)))
    else none

/-- The loop over the off-diagonal elements in `expand` (sun_matrix.h:482-490). -/
noncomputable def expandOff (c : Alg N) (inv2 : ℝ) :
    List (Fin N × Fin N) → ℕ → (Fin N → Fin N → Option ℂ) → Option (Fin N → Fin N → Option ℂ)
  | [], _, m => some m
  | (i, j) :: ps, k, m =>
    if h : k + 1 < N * N - 1 then
      let v : ℂ := ⟨c ⟨k, by omega⟩ * inv2, c ⟨k + 1, h⟩ * inv2⟩
      let m' := Function.update m i (Function.update (m i) j (some v))
      expandOff c inv2 ps (k + 2) (Function.update m' j (Function.update (m' j) i (some (-star v))))
    else none

/-- `expand_scaled` (sun_matrix.h:496-524). -/
noncomputable def expandScaledRun (c : Alg N) (scf : ℝ) : Option (Mat N) :=
  match List.finRange N with
  | [] => none
  | _ :: is =>
    match expandDiag c is fun j => if j = 0 then some 0 else none with
    | none => none
    | some d =>
      match expandOff c (0.5 * scf) (upperPairs N) (N - 1)
          (fun i j => if i = j then (d i.val).map fun r => (⟨0, scf * r⟩ : ℂ) else none) with
      | none => none
      | some m => if ∀ i j, (m i j).isSome then some (Matrix.of fun i j => (m i j).getD 0) else none

/-- `expand` (sun_matrix.h:464-493): the same statements without the factor. -/
noncomputable def expandRun (c : Alg N) : Option (Mat N) := expandScaledRun c 1

/-! For the code that calls these functions; C50 shows that the results are always defined for `N ≥ 1`. -/

/-- `project_to_algebra_scaled`. -/
noncomputable def projectScaled (A : Mat N) (scf : ℝ) : Alg N := (projectScaledRun A scf).getD 0

/-- `project_to_algebra`. -/
noncomputable def project (A : Mat N) : Alg N := (projectRun A).getD 0

/-- `expand`. -/
noncomputable def expand (c : Alg N) : Mat N := (expandRun c).getD 0

/-- `expand_scaled`. -/
noncomputable def expandScaled (c : Alg N) (scf : ℝ) : Mat N := (expandScaledRun c scf).getD 0

/-- `dot` (sun_matrix.h:561-567). -/
noncomputable def Alg.dot (a b : Alg N) : ℝ := (∑ i, a i * b i) * 0.5

/-- `squarenorm`, inherited from the vector. -/
noncomputable def Alg.squarenorm (a : Alg N) : ℝ := ∑ i, a i ^ 2

/-- `right_conjugation` (sun_matrix.h:738-742). -/
noncomputable def rightConj (U : Mat N) (E : Alg N) : Alg N := project (U.conjTranspose * expand E * U)

/-- `left_conjugation` (sun_matrix.h:745-749). -/
noncomputable def leftConj (U : Mat N) (E : Alg N) : Alg N := project (U * expand E * U.conjTranspose)

/-! ### Generators as sparse matrices -/

/-- `Alg_gen` (sun_matrix.h:51-91): a list of elements (row, column, value) in an array of size `N`. -/
abbrev AlgGen (N : ℕ) := List (Fin N × Fin N × ℂ)

/-- `push` (sun_matrix.h:70-74): undefined when the array is full. -/
def AlgGen.push (g : AlgGen N) (e : Fin N × Fin N × ℂ) : Option (AlgGen N) :=
  if g.length < N then some (g ++ [e]) else none

/-- Several pushes. -/
def AlgGen.pushAll (g : AlgGen N) : List (Fin N × Fin N × ℂ) → Option (AlgGen N)
  | [] => some g
  | e :: es =>
    match g.push e with
    | none => none
    | some g' => AlgGen.pushAll g' es

/-- `to_matrix` (sun_matrix.h:80-86). -/
def AlgGen.toMatrix (g : AlgGen N) : Mat N :=
  g.foldl (fun m e => m.updateRow e.1 (Function.update (m e.1) e.2.1 e.2.2)) 0

/-- The diagonal generators (sun_matrix.h:409-415). `empty` comes first. -/
noncomputable def genDiagLoop : List (Fin N) → Buf (AlgGen N) → Option (Buf (AlgGen N))
  | [], b => some b
  | i :: is, b =>
    match AlgGen.pushAll [] (((List.finRange N).filter fun j => j < i).map (fun j =>
        (j, j, (⟨0, 1 / Real.sqrt (2 * (i.val * (i.val + 1)))⟩ : ℂ))) ++
        [(i, i, ⟨0, -i.val / Real.sqrt (2 * (i.val * (i.val + 1)))⟩)]) with
    | none => none
    | some g =>
      match wr (N * N - 1) b (i.val - 1) g with
      | none => none
      | some b' => genDiagLoop is b'

/-- The off-diagonal generators (sun_matrix.h:417-430). -/
noncomputable def genOffLoop : List (Fin N × Fin N) → ℕ → Buf (AlgGen N) → Option (Buf (AlgGen N))
  | [], _, b => some b
  | (i, j) :: ps, k, b =>
    match AlgGen.pushAll [] [(i, j, (⟨0.5, 0⟩ : ℂ)), (j, i, ⟨-0.5, 0⟩)],
        AlgGen.pushAll [] [(i, j, (⟨0, 0.5⟩ : ℂ)), (j, i, ⟨0, 0.5⟩)] with
    | some g, some g' =>
      match wr (N * N - 1) b k g with
      | none => none
      | some b' =>
        match wr (N * N - 1) b' (k + 1) g' with
        | none => none
        | some b'' => genOffLoop ps (k + 2) b''
    | _, _ => none

/-- `generator_list` (sun_matrix.h:406-431); `old` is the array before. -/
noncomputable def generatorList (old : Buf (AlgGen N)) : Option (Fin (N * N - 1) → AlgGen N) :=
  match genDiagLoop ((List.finRange N).drop 1) old with
  | none => none
  | some b =>
    match genOffLoop (upperPairs N) (N - 1) b with
    | none => none
    | some b' => collect (N * N - 1) b'

/-- Product of two sparse matrices, `temp` (sun_matrix.h:442-450). -/
noncomputable def sparseMul (g h : AlgGen N) : Mat N :=
  g.foldl (fun m e => h.foldl (fun m f =>
    if e.2.1 = f.1 then m + Matrix.single e.1 f.2.1 (e.2.2 * f.2.2) else m) m) 0

open Classical in
/-- The nonzero elements in the order of the loops (sun_matrix.h:451-457). -/
noncomputable def nonzeros (m : Mat N) : AlgGen N :=
  (List.finRange N).flatMap fun j1 => ((List.finRange N).filter fun j2 => m j1 j2 ≠ 0).map fun j2 => (j1, j2, m j1 j2)

/-- `generator_product_list(gen_list, gen_prod_list)` (sun_matrix.h:433-459) for one pair of generators: the elements
are pushed to what is in the list before. -/
noncomputable def generatorProduct (g h : AlgGen N) (old : AlgGen N) : Option (AlgGen N) :=
  old.pushAll (nonzeros (sparseMul g h))

/-- One element of `project_to_algebra_bilinear(w1, w2, omat, genlist)` (sun_matrix.h:641-663). -/
noncomputable def bilinear2 (w1 w2 : Mat N) (g h : AlgGen N) : ℝ :=
  -2 * (g.foldl (fun t e => h.foldl (fun t f => t + (e.2.2 * w1 e.2.1 f.1 * f.2.2 * w2 f.2.1 e.1).re) t) 0)

/-- One element of `project_to_algebra_bilinear(w1, omat, genprodlist)` (sun_matrix.h:674-692) from the product
`genprodlist[i2][i1]`. -/
noncomputable def bilinear1 (w1 : Mat N) (gp : AlgGen N) : ℝ :=
  -2 * (gp.foldl (fun t e => t + (e.2.2 * w1 e.2.1 e.1).re) 0)

/-- One element of `project_to_algebra_bilinear(w, omat, genlist)` for an array of matrices (sun_matrix.h:703-725). -/
noncomputable def bilinearW (w : Fin N → Fin N → Mat N) (g h : AlgGen N) : ℝ :=
  -2 * (g.foldl (fun t e => h.foldl (fun t f => t + (e.2.2 * w f.1 f.2.1 e.2.1 e.1 * f.2.2).re) t) 0)

end Hila
