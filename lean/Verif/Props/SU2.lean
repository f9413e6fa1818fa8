import Verif.Model.SU2
import Mathlib.LinearAlgebra.UnitaryGroup
import Mathlib.LinearAlgebra.Matrix.Trace
import Mathlib.Analysis.Normed.Algebra.QuaternionExponential
import Mathlib.Analysis.Normed.Algebra.MatrixExponential
import Mathlib.Tactic.FieldSimp
import Mathlib.Tactic.Ring
import Mathlib.Tactic.Linarith
import Mathlib.Tactic.NormNum
import Mathlib.Tactic.FinCases
import Mathlib.Tactic.LinearCombination

/-!
# C28, C47: the class SU2

The specification is the description at the top of su2.h: `U = d + a i σ₁ + b i σ₂ + c i σ₃`, with the Pauli
matrices, and Mathlib's matrix operations.
-/

namespace Hila

open Matrix Complex

/-! ### Specification -/

/-- The Pauli matrices. -/
def pauli1 : Matrix (Fin 2) (Fin 2) ℂ := !![0, 1; 1, 0]
def pauli2 : Matrix (Fin 2) (Fin 2) ℂ := !![0, -I; I, 0]
def pauli3 : Matrix (Fin 2) (Fin 2) ℂ := !![1, 0; 0, -1]

/-- Close goals on 2×2 matrices entry by entry. -/
macro "entries" : tactic =>
  `(tactic| (ext i j; fin_cases i <;> fin_cases j <;> simp [Matrix.mul_apply, Fin.sum_univ_two] <;>
      (try apply Complex.ext) <;> simp <;> (try ring)))

/-- **C28 (meaning).** The matrix of an element is `d + a i σ₁ + b i σ₂ + c i σ₃`. -/
theorem C28_matrix (x : SU2) :
    x.toMatrix = (x.d : ℂ) • (1 : Matrix (Fin 2) (Fin 2) ℂ) + ((x.a : ℂ) * I) • pauli1 +
      ((x.b : ℂ) * I) • pauli2 + ((x.c : ℂ) * I) • pauli3 := by
  unfold SU2.toMatrix pauli1 pauli2 pauli3
  entries

theorem toMatrix_mul (x y : SU2) : (x.mul y).toMatrix = x.toMatrix * y.toMatrix := by
  unfold SU2.toMatrix SU2.mul
  entries

theorem toMatrix_dagger (x : SU2) : x.dagger.toMatrix = x.toMatrixᴴ := by
  unfold SU2.toMatrix SU2.dagger
  entries

theorem toMatrix_det (x : SU2) : x.toMatrix.det = (x.det : ℂ) := by
  unfold SU2.toMatrix SU2.det
  rw [Matrix.det_fin_two]
  apply Complex.ext <;> simp <;> ring

theorem toMatrix_scale (x : SU2) (y : ℝ) : (x.scale y).toMatrix = (y : ℂ) • x.toMatrix := by
  unfold SU2.toMatrix SU2.scale
  entries

/-- **C28 (operations).** Products, conjugates, sums, differences, multiples, determinants and traces of
elements are those of their matrices. -/
theorem C28_operations (x y : SU2) (r : ℝ) :
    (x.mul y).toMatrix = x.toMatrix * y.toMatrix ∧ x.dagger.toMatrix = x.toMatrixᴴ ∧
      (x.add y).toMatrix = x.toMatrix + y.toMatrix ∧ (x.sub y).toMatrix = x.toMatrix - y.toMatrix ∧
      x.neg.toMatrix = -x.toMatrix ∧ (x.scale r).toMatrix = (r : ℂ) • x.toMatrix ∧
      (SU2.ofScalar r).toMatrix = (r : ℂ) • (1 : Matrix (Fin 2) (Fin 2) ℂ) ∧
      (x.det : ℂ) = x.toMatrix.det ∧ (x.trace : ℂ) = x.toMatrix.trace ∧
      (x.mulTrace y : ℂ) = (x.toMatrix * y.toMatrix).trace ∧ (r ≠ 0 → (x.div r).toMatrix = (r : ℂ)⁻¹ • x.toMatrix) := by
  refine ⟨toMatrix_mul x y, toMatrix_dagger x, ?_, ?_, ?_, toMatrix_scale x r, ?_, (toMatrix_det x).symm, ?_, ?_, ?_⟩
  · unfold SU2.toMatrix SU2.add; entries
  · unfold SU2.toMatrix SU2.sub; entries
  · unfold SU2.toMatrix SU2.neg; entries
  · unfold SU2.toMatrix SU2.ofScalar; entries
  · unfold SU2.toMatrix SU2.trace
    rw [Matrix.trace_fin_two]
    apply Complex.ext <;> simp
    ring
  · unfold SU2.toMatrix SU2.mulTrace
    rw [Matrix.trace_fin_two]
    apply Complex.ext <;> simp [Matrix.mul_apply, Fin.sum_univ_two] <;> ring
  · intro hr
    have : x.div r = x.scale r⁻¹ := by
      unfold SU2.div SU2.scale
      simp only [div_eq_mul_inv]
    rw [this, toMatrix_scale]
    push_cast
    rfl

theorem dagger_mul_self (x : SU2) : x.dagger.mul x = SU2.ofScalar x.det := by
  unfold SU2.dagger SU2.mul SU2.ofScalar SU2.det
  ext <;> simp <;> ring

theorem mul_dagger_self (x : SU2) : x.mul x.dagger = SU2.ofScalar x.det := by
  unfold SU2.dagger SU2.mul SU2.ofScalar SU2.det
  ext <;> simp <;> ring

theorem det_mul (x y : SU2) : (x.mul y).det = x.det * y.det := by
  unfold SU2.det SU2.mul
  ring

theorem toMatrix_one : (SU2.ofScalar 1).toMatrix = 1 := by
  unfold SU2.toMatrix SU2.ofScalar; entries

/-- **C28 (group).** The matrix is in SU(2) exactly if the element is normalised; every matrix of SU(2)
comes from exactly one element; determinants multiply, so products of normalised elements are normalised. -/
theorem C28_group :
    (∀ x : SU2, x.toMatrix ∈ specialUnitaryGroup (Fin 2) ℂ ↔ x.det = 1) ∧
      (∀ M ∈ specialUnitaryGroup (Fin 2) ℂ, ∃! x : SU2, x.toMatrix = M) ∧
      ∀ x y : SU2, (x.mul y).det = x.det * y.det := by
  refine ⟨fun x => ?_, fun M hM => ?_, det_mul⟩
  · rw [mem_specialUnitaryGroup_iff]
    constructor
    · rintro ⟨_, h⟩
      rw [toMatrix_det] at h
      exact_mod_cast h
    · intro h
      refine ⟨?_, by rw [toMatrix_det, h]; norm_num⟩
      rw [mem_unitaryGroup_iff, star_eq_conjTranspose, ← toMatrix_dagger, ← toMatrix_mul, mul_dagger_self, h,
        toMatrix_one]
  · obtain ⟨h1, h2⟩ := mem_specialUnitaryGroup_iff.1 hM
    have hinv : M * star M = 1 := mem_unitaryGroup_iff.1 h1
    -- the adjugate is the inverse
    have hadj : star M = M.adjugate := by
      have h3 : M.adjugate * M = 1 := by rw [adjugate_mul, h2, one_smul]
      calc star M = (M.adjugate * M) * star M := by rw [h3, one_mul]
        _ = M.adjugate := by rw [mul_assoc, hinv, mul_one]
    have e00 : starRingEnd ℂ (M 0 0) = M 1 1 := by
      have := congrFun (congrFun hadj 0) 0
      simpa [adjugate_fin_two, star_eq_conjTranspose] using this
    have e10 : starRingEnd ℂ (M 1 0) = -M 0 1 := by
      have := congrFun (congrFun hadj 0) 1
      simpa [adjugate_fin_two, star_eq_conjTranspose] using this
    refine ⟨⟨(M 0 1).im, (M 0 1).re, (M 0 0).im, (M 0 0).re⟩, ?_, ?_⟩
    · have q1 : M 1 1 = ⟨(M 0 0).re, -(M 0 0).im⟩ := by
        rw [← e00]; apply Complex.ext <;> simp
      have q2 : M 1 0 = ⟨-(M 0 1).re, (M 0 1).im⟩ := by
        have := congrArg (starRingEnd ℂ) e10
        rw [Complex.conj_conj] at this
        rw [this]; apply Complex.ext <;> simp
      unfold SU2.toMatrix
      ext i j
      fin_cases i <;> fin_cases j
      · rfl
      · rfl
      · simpa using q2.symm
      · simpa using q1.symm
    · intro y hy
      rw [← hy]
      unfold SU2.toMatrix
      ext <;> simp

/-- **C28 (normalisation).** Unless all components are zero, `normalize` gives the element with the same
direction in SU(2); for zero the result is not a number. -/
theorem C28_normalize (x : SU2) :
    (x = SU2.ofScalar 0 → x.normalize = none) ∧
      (x ≠ SU2.ofScalar 0 → ∃ y, x.normalize = some y ∧ y.det = 1 ∧ 0 < Real.sqrt x.det ∧ x = y.scale (Real.sqrt x.det)) := by
  constructor
  · rintro rfl
    simp [SU2.normalize, SU2.ofScalar, SU2.det]
  · intro hx
    have hpos : 0 < x.det := by
      unfold SU2.det
      by_contra h
      apply hx
      have h1 := mul_self_nonneg x.a
      have h2 := mul_self_nonneg x.b
      have h3 := mul_self_nonneg x.c
      have h4 := mul_self_nonneg x.d
      unfold SU2.ofScalar
      ext <;> (apply mul_self_eq_zero.1; linarith)
    have hs : 0 < Real.sqrt x.det := Real.sqrt_pos.2 hpos
    refine ⟨x.div (Real.sqrt x.det), ?_, ?_, hs, ?_⟩
    · unfold SU2.normalize
      rw [if_neg hs.ne']
    · have h2 : Real.sqrt x.det * Real.sqrt x.det = x.det := Real.mul_self_sqrt hpos.le
      have : (x.div (Real.sqrt x.det)).det = x.det / (Real.sqrt x.det * Real.sqrt x.det) := by
        generalize Real.sqrt x.det = s at *
        unfold SU2.det SU2.div
        field_simp
      rw [this, h2, div_self hpos.ne']
    · unfold SU2.scale SU2.div
      have := hs.ne'
      ext <;> simp [this]

/-- **C28 (conversion and projection).** Projecting the matrix of an element gives the element back. For
every N×N matrix the projection on rows and columns `i ≠ j` is the element with the same real trace against
all elements of SU(2). -/
theorem C28_projection (x : SU2) {N : ℕ} (M : Matrix (Fin N) (Fin N) ℂ) (i j : Fin N) :
    SU2.projectFromMatrix x.toMatrix 0 1 = x ∧
      (x.toMatrix * !![M i i, M i j; M j i, M j j]).trace.re = x.mulTrace (SU2.projectFromMatrix M i j) := by
  constructor
  · unfold SU2.projectFromMatrix SU2.toMatrix
    ext <;> simp <;> ring
  · unfold SU2.projectFromMatrix SU2.toMatrix SU2.mulTrace
    rw [Matrix.trace_fin_two]
    simp [Matrix.mul_apply, Fin.sum_univ_two]
    ring

/-- **C28 (algebra).** `expand` and `project_to_algebra` are inverse to each other, the product of two
algebra elements is -2 times the trace of the product of the matrices, and the conjugations are `U† E U` and
`U E U†` for normalised `U`. -/
theorem C28_algebra (U : SU2) (hU : U.det = 1) (E F : SU2Algebra) :
    E.expand.projectToAlgebra = E ∧
      ((E.dot F : ℝ) : ℂ) = -2 * (E.expand.toMatrix * F.expand.toMatrix).trace ∧
      (rightConjugation U E).expand.toMatrix = U.toMatrixᴴ * E.expand.toMatrix * U.toMatrix ∧
      (leftConjugation U E).expand.toMatrix = U.toMatrix * E.expand.toMatrix * U.toMatrixᴴ := by
  refine ⟨?_, ?_, ?_, ?_⟩
  · unfold SU2Algebra.expand SU2.projectToAlgebra SU2.scale
    ext <;> simp <;> ring
  · unfold SU2Algebra.expand SU2.scale SU2Algebra.dot SU2.toMatrix
    rw [Matrix.trace_fin_two]
    apply Complex.ext <;> simp [Matrix.mul_apply, Fin.sum_univ_two] <;> ring
  · rw [← toMatrix_dagger, ← toMatrix_mul, ← toMatrix_mul]
    congr 1
    unfold SU2.det at hU
    unfold rightConjugation SU2Algebra.expand SU2.scale SU2.dagger SU2.mul
    ext <;> simp
    · linear_combination (0.5 * E.a) * hU
    · linear_combination (0.5 * E.b) * hU
    · linear_combination (0.5 * E.c) * hU
    · ring
  · rw [← toMatrix_dagger, ← toMatrix_mul, ← toMatrix_mul]
    congr 1
    unfold SU2.det at hU
    unfold leftConjugation SU2Algebra.expand SU2.scale SU2.dagger SU2.mul
    ext <;> simp
    · linear_combination (0.5 * E.a) * hU
    · linear_combination (0.5 * E.b) * hU
    · linear_combination (0.5 * E.c) * hU
    · ring

/-- The square norm of an element is half of that of its matrix (which is what `squarenorm` of the general
matrix class gives). -/
theorem C28_squarenorm_half (x : SU2) : ∑ i, ∑ j, Complex.normSq (x.toMatrix i j) = 2 * x.squarenorm := by
  unfold SU2.toMatrix SU2.squarenorm SU2.det
  simp [Fin.sum_univ_two, Complex.normSq_mk]
  ring

/-! ### Exponential and logarithm -/

/-- The ring homomorphism from the quaternions that the class implements. -/
def quaternionMatrix : Quaternion ℝ →+* Matrix (Fin 2) (Fin 2) ℂ where
  toFun q := (⟨-q.imI, -q.imJ, -q.imK, q.re⟩ : SU2).toMatrix
  map_one' := by
    rw [← toMatrix_one]
    congr 1
    unfold SU2.ofScalar
    ext <;> simp [Quaternion.re_one, Quaternion.imI_one, Quaternion.imJ_one, Quaternion.imK_one]
  map_zero' := by
    have : (⟨-(0 : Quaternion ℝ).imI, -(0 : Quaternion ℝ).imJ, -(0 : Quaternion ℝ).imK, (0 : Quaternion ℝ).re⟩ : SU2) =
        SU2.ofScalar 0 := by
      unfold SU2.ofScalar
      ext <;> simp [Quaternion.re_zero, Quaternion.imI_zero, Quaternion.imJ_zero, Quaternion.imK_zero]
    rw [this]
    unfold SU2.toMatrix SU2.ofScalar; entries
  map_add' p q := by
    rw [Quaternion.re_add, Quaternion.imI_add, Quaternion.imJ_add, Quaternion.imK_add]
    unfold SU2.toMatrix; entries
  map_mul' p q := by
    rw [← toMatrix_mul]
    congr 1
    unfold SU2.mul
    rw [Quaternion.re_mul, Quaternion.imI_mul, Quaternion.imJ_mul, Quaternion.imK_mul]
    ext <;> simp <;> ring

theorem continuous_quaternionMatrix : Continuous quaternionMatrix := by
  have h1 : Continuous fun q : Quaternion ℝ => (q.re : ℂ) := continuous_ofReal.comp Quaternion.continuous_re
  have h2 : Continuous fun q : Quaternion ℝ => (q.imI : ℂ) := continuous_ofReal.comp Quaternion.continuous_imI
  have h3 : Continuous fun q : Quaternion ℝ => (q.imJ : ℂ) := continuous_ofReal.comp Quaternion.continuous_imJ
  have h4 : Continuous fun q : Quaternion ℝ => (q.imK : ℂ) := continuous_ofReal.comp Quaternion.continuous_imK
  have e : (fun q => quaternionMatrix q) = fun q : Quaternion ℝ =>
      !![(q.re : ℂ) - q.imK * I, -(q.imJ : ℂ) - q.imI * I; (q.imJ : ℂ) - q.imI * I, (q.re : ℂ) + q.imK * I] := by
    funext q
    show (⟨-q.imI, -q.imJ, -q.imK, q.re⟩ : SU2).toMatrix = _
    unfold SU2.toMatrix
    entries
  show Continuous fun q => quaternionMatrix q
  rw [e]
  refine continuous_matrix fun i j => ?_
  fin_cases i <;> fin_cases j <;> simp <;> fun_prop

/-- **C47 (exponential).** The exponential of an algebra element is the exponential of its matrix. -/
theorem C47_exp_is_matrix_exp (x : SU2Algebra) : x.exp.toMatrix = NormedSpace.exp x.expand.toMatrix := by
  let q : Quaternion ℝ := ⟨0, -(x.a * 0.5), -(x.b * 0.5), -(x.c * 0.5)⟩
  have hq : quaternionMatrix q = x.expand.toMatrix := by
    show (⟨-q.imI, -q.imJ, -q.imK, q.re⟩ : SU2).toMatrix = _
    congr 1
    unfold SU2Algebra.expand SU2.scale
    ext <;> simp [q]
  let +nondep : NormedAlgebra ℚ (Quaternion ℝ) := .restrictScalars ℚ ℝ (Quaternion ℝ)
  have hmap : quaternionMatrix (NormedSpace.exp q) = NormedSpace.exp (quaternionMatrix q) := by
    let : NormedRing (Matrix (Fin 2) (Fin 2) ℂ) := Matrix.linftyOpNormedRing
    exact NormedSpace.map_exp quaternionMatrix continuous_quaternionMatrix q
  rw [← hq, ← hmap, Quaternion.exp_eq]
  have him : q.im = q := by
    ext <;> rfl
  have hre : q.re = 0 := rfl
  have hnorm : ‖q‖ = Real.sqrt (x.scale 0.5).squarenorm := by
    rw [← Real.sqrt_mul_self (norm_nonneg q), ← Quaternion.normSq_eq_norm_mul_self, Quaternion.normSq_def']
    congr 1
    simp only [q, SU2Algebra.squarenorm, SU2Algebra.scale]
    ring
  rw [him, hre, hnorm, NormedSpace.exp_zero, one_smul]
  have comp : ∀ c t : ℝ, quaternionMatrix ((c : Quaternion ℝ) + t • q) =
      (⟨t * (x.a * 0.5), t * (x.b * 0.5), t * (x.c * 0.5), c⟩ : SU2).toMatrix := by
    intro c t
    show SU2.toMatrix _ = _
    congr 1
    ext
    · show -(0 + t * -(x.a * 0.5)) = t * (x.a * 0.5); ring
    · show -(0 + t * -(x.b * 0.5)) = t * (x.b * 0.5); ring
    · show -(0 + t * -(x.c * 0.5)) = t * (x.c * 0.5); ring
    · show c + t * 0 = c; ring
  rw [comp]
  congr 1
  unfold SU2Algebra.exp
  dsimp only
  split
  · rename_i h
    have h0 : Real.sqrt (x.scale 0.5).squarenorm = 0 := le_antisymm h (Real.sqrt_nonneg _)
    rw [h0]
    unfold SU2.ofScalar
    ext <;> simp
  · rfl

/-- **C47 (group).** The exponential of an algebra element is in SU(2), and that of the opposite element is
the inverse. -/
theorem C47_exp_normalised (x : SU2Algebra) :
    x.exp.det = 1 ∧ x.neg.exp = x.exp.dagger ∧ x.neg.exp.mul x.exp = SU2.ofScalar 1 := by
  have h1 : x.exp.det = 1 := by
    unfold SU2Algebra.exp
    dsimp only
    split
    · simp [SU2.det, SU2.ofScalar]
    · rename_i h
      have hr : Real.sqrt (x.scale 0.5).squarenorm ≠ 0 := fun h' => h h'.le
      have hsq : Real.sqrt (x.scale 0.5).squarenorm * Real.sqrt (x.scale 0.5).squarenorm =
          (x.scale 0.5).squarenorm := by
        apply Real.mul_self_sqrt
        unfold SU2Algebra.squarenorm
        have h1 := mul_self_nonneg (x.scale 0.5).a
        have h2 := mul_self_nonneg (x.scale 0.5).b
        have h3 := mul_self_nonneg (x.scale 0.5).c
        linarith
      generalize Real.sqrt (x.scale 0.5).squarenorm = r at *
      unfold SU2Algebra.squarenorm at hsq
      unfold SU2.det
      dsimp only
      have hsc := Real.sin_sq_add_cos_sq r
      have : Real.sin r / r * (x.scale 0.5).a * (Real.sin r / r * (x.scale 0.5).a) +
          Real.sin r / r * (x.scale 0.5).b * (Real.sin r / r * (x.scale 0.5).b) +
          Real.sin r / r * (x.scale 0.5).c * (Real.sin r / r * (x.scale 0.5).c) =
          Real.sin r * Real.sin r / (r * r) * ((x.scale 0.5).a * (x.scale 0.5).a +
            (x.scale 0.5).b * (x.scale 0.5).b + (x.scale 0.5).c * (x.scale 0.5).c) := by
        field_simp
      rw [this, ← hsq]
      field_simp
      exact hsc
  have h2 : x.neg.exp = x.exp.dagger := by
    have e : (x.neg.scale 0.5).squarenorm = (x.scale 0.5).squarenorm := by
      unfold SU2Algebra.squarenorm SU2Algebra.scale SU2Algebra.neg
      dsimp only
      ring
    unfold SU2Algebra.exp
    dsimp only
    rw [e]
    split
    · unfold SU2.ofScalar SU2.dagger
      ext <;> simp
    · unfold SU2.dagger SU2Algebra.scale SU2Algebra.neg
      ext <;> simp
  refine ⟨h1, h2, ?_⟩
  rw [h2, dagger_mul_self, h1]

/-- **C47 (logarithm).** For every element of SU(2) except -1 the logarithm is defined and its exponential
is the element. Missing (`_partial`): -1, see `C47_log_minus_one`. -/
theorem C47_log_exp_partial (U : SU2) (hU : U.det = 1) (hne : U ≠ SU2.ofScalar (-1)) :
    ∃ E, U.log = some E ∧ E.exp = U := by
  unfold SU2.det at hU
  have ha := mul_self_nonneg U.a
  have hb := mul_self_nonneg U.b
  have hc := mul_self_nonneg U.c
  have hd := mul_self_nonneg U.d
  have hrr : Real.sqrt (U.a * U.a + U.b * U.b + U.c * U.c) * Real.sqrt (U.a * U.a + U.b * U.b + U.c * U.c) =
      U.a * U.a + U.b * U.b + U.c * U.c := Real.mul_self_sqrt (by linarith)
  have hr0 := Real.sqrt_nonneg (U.a * U.a + U.b * U.b + U.c * U.c)
  unfold SU2.log
  dsimp only
  generalize hr : Real.sqrt (U.a * U.a + U.b * U.b + U.c * U.c) = r at *
  by_cases h : r ≤ 0
  · have hr : r = 0 := le_antisymm h hr0
    rw [hr, mul_zero] at hrr
    have a0 : U.a = 0 := mul_self_eq_zero.1 (by linarith)
    have b0 : U.b = 0 := mul_self_eq_zero.1 (by linarith)
    have c0 : U.c = 0 := mul_self_eq_zero.1 (by linarith)
    have d1 : U.d = 1 := by
      rcases mul_self_eq_one_iff.1 (show U.d * U.d = 1 by linarith) with h | h
      · exact h
      · exfalso; apply hne; unfold SU2.ofScalar; ext <;> simp [a0, b0, c0, h]
    rw [if_pos h]
    refine ⟨_, rfl, ?_⟩
    unfold SU2Algebra.exp SU2Algebra.scale SU2Algebra.squarenorm
    simp only [zero_mul, add_zero, Real.sqrt_zero, le_refl, if_true]
    unfold SU2.ofScalar
    ext <;> simp [a0, b0, c0, d1]
  · have hrpos : 0 < r := not_le.1 h
    have hd2 : U.d * U.d < 1 := by nlinarith
    have hd3 : -1 < U.d ∧ U.d < 1 := abs_lt.1 (by rw [← Real.sqrt_one, Real.lt_sqrt (abs_nonneg _), sq_abs]; nlinarith)
    rw [if_neg h, if_neg (by rintro (h | h) <;> linarith)]
    refine ⟨_, rfl, ?_⟩
    have hth : 0 < Real.arccos U.d := Real.arccos_pos.2 hd3.2
    have hcos : Real.cos (Real.arccos U.d) = U.d := Real.cos_arccos hd3.1.le hd3.2.le
    have hsin : Real.sin (Real.arccos U.d) = r := by
      rw [Real.sin_arccos, ← Real.sqrt_mul_self hrpos.le]
      congr 1
      rw [hrr, pow_two]
      linarith
    generalize Real.arccos U.d = θ at *
    unfold SU2Algebra.exp
    have hn : Real.sqrt (SU2Algebra.scale ⟨2 * (θ / r) * U.a, 2 * (θ / r) * U.b, 2 * (θ / r) * U.c⟩ 0.5).squarenorm = θ := by
      refine Eq.trans ?_ (Real.sqrt_mul_self hth.le)
      congr 1
      unfold SU2Algebra.squarenorm SU2Algebra.scale
      dsimp only
      have : 2 * (θ / r) * U.a * 0.5 * (2 * (θ / r) * U.a * 0.5) + 2 * (θ / r) * U.b * 0.5 * (2 * (θ / r) * U.b * 0.5) +
          2 * (θ / r) * U.c * 0.5 * (2 * (θ / r) * U.c * 0.5) =
          θ * θ / (r * r) * (U.a * U.a + U.b * U.b + U.c * U.c) := by
        field_simp; ring
      rw [this, ← hrr]
      field_simp
    dsimp only
    rw [hn, if_neg (not_le.2 hth), hcos, hsin]
    unfold SU2Algebra.scale
    have := hth.ne'
    have := hrpos.ne'
    ext
    · dsimp only; field_simp; ring
    · dsimp only; field_simp; ring
    · dsimp only; field_simp; ring
    · rfl

/-- **C47 fails for -1.** Its logarithm is computed as zero, whose exponential is +1. -/
theorem C47_log_minus_one :
    (SU2.ofScalar (-1)).log = some ⟨0, 0, 0⟩ ∧ (⟨0, 0, 0⟩ : SU2Algebra).exp = SU2.ofScalar 1 := by
  constructor
  · simp [SU2.log, SU2.ofScalar]
  · simp [SU2Algebra.exp, SU2Algebra.scale, SU2Algebra.squarenorm]

/-- **C47 fails for `SU2::exp`.** Unless the element is a multiple of the identity, three components of the
result are multiples of uninitialised memory and do not depend on the direction of the argument: if `sin` of
the length is not zero, every value is possible. -/
theorem C47_su2_exp_uninitialised (x : SU2) (y : ℝ)
    (hs : Real.sin (Real.sqrt (x.a * x.a + x.b * x.b + x.c * x.c)) ≠ 0) : ∃ junk : SU2, (SU2.exp junk x).a = y := by
  unfold SU2.exp
  dsimp only
  have h0 := Real.sqrt_nonneg (x.a * x.a + x.b * x.b + x.c * x.c)
  generalize Real.sqrt (x.a * x.a + x.b * x.b + x.c * x.c) = r at *
  have hr : r ≠ 0 := by rintro rfl; simp at hs
  have hn : ¬ r ≤ 0 := fun h => hr (le_antisymm h h0)
  have hne : Real.exp x.d * Real.sin r / r ≠ 0 := div_ne_zero (mul_ne_zero (Real.exp_ne_zero _) hs) hr
  refine ⟨⟨y / (Real.exp x.d * Real.sin r / r), 0, 0, 0⟩, ?_⟩
  rw [if_neg hn]
  exact div_mul_cancel₀ y hne

/-! ### Concrete cases -/

/-- Two elements of SU(2) that do not commute. -/
example : (⟨3 / 5, 0, 0, 4 / 5⟩ : SU2).det = 1 ∧ (⟨0, 5 / 13, 0, 12 / 13⟩ : SU2).det = 1 ∧
    (⟨3 / 5, 0, 0, 4 / 5⟩ : SU2).mul ⟨0, 5 / 13, 0, 12 / 13⟩ ≠ (⟨0, 5 / 13, 0, 12 / 13⟩ : SU2).mul ⟨3 / 5, 0, 0, 4 / 5⟩ := by
  refine ⟨by norm_num [SU2.det], by norm_num [SU2.det], fun h => ?_⟩
  have := congrArg SU2.c h
  norm_num [SU2.mul] at this

example : (⟨3 / 5, 0, 0, 4 / 5⟩ : SU2) ≠ SU2.ofScalar (-1) := by
  intro h
  have := congrArg SU2.a h
  norm_num [SU2.ofScalar] at this

end Hila
