import Verif.Model.TaylorExp
import Verif.Props.ChExp
import Mathlib.Analysis.Calculus.Deriv.Linear

/-!
# C106: the matrix exponentials that sum the Taylor series
-/

namespace Hila

open scoped Nat

variable {𝕜 : Type} [RCLike 𝕜] {k : ℕ}

/-! ### Specification -/

/-- `Σ_{i ≤ K} A^i / i!`. -/
noncomputable def taylorTo (A : SqMat 𝕜 k) (K : ℕ) : SqMat 𝕜 k := ∑ i ∈ Finset.range (K + 1), (1 / (i ! : 𝕜)) • A ^ i

/-! ### The loops -/

theorem fact_cast_succ (j : ℕ) : (1 / ((j + 1)! : 𝕜)) * (1 / ((j + 2 : ℕ) : 𝕜)) = 1 / ((j + 2)! : 𝕜) := by
  rw [show j + 2 = (j + 1) + 1 from rfl, Nat.factorial_succ (j + 1), Nat.cast_mul, one_div, one_div, one_div, mul_inv, mul_comm]

theorem taylor_succ' (A : SqMat 𝕜 k) (J : ℕ) : taylor A (J + 1) = taylor A J + (1 / (J ! : 𝕜)) • A ^ J := by
  unfold taylor
  rw [Finset.sum_range_succ]

theorem dtaylor_succ' (A Z : SqMat 𝕜 k) (J : ℕ) : dtaylor A Z (J + 1) = dtaylor A Z J + (1 / (J ! : 𝕜)) • dpow A Z J := by
  unfold dtaylor
  rw [Finset.sum_range_succ]

theorem dpow_left (A Z : SqMat 𝕜 k) (m : ℕ) : dpow A Z (m + 1) = Z * A ^ m + A * dpow A Z m := by
  unfold dpow
  rw [Finset.sum_range_succ', Finset.mul_sum, pow_zero, one_mul, add_comm]
  congr 1
  refine Finset.sum_congr rfl fun a _ => ?_
  rw [pow_succ', show m + 1 - 1 - (a + 1) = m - 1 - a by omega]
  simp only [mul_assoc]

theorem expLoop_eq (A : SqMat 𝕜 k) (j : ℕ) (r : SqMat 𝕜 k) :
    expLoop A j r + 1 = taylor A (j + 1) + (1 / ((j + 1)! : 𝕜)) • (r * A ^ j) := by
  induction j generalizing r with
  | zero => simp [expLoop, taylor, add_comm]
  | succ j ih =>
    rw [expLoop, ih, taylor_succ' A (j + 1), add_assoc, ← fact_cast_succ]
    congr 1
    rw [mul_assoc, ← pow_succ', add_mul, one_mul, smul_add, smul_mul_assoc, smul_smul]
    exact add_comm _ _

theorem matExp_eq (order : ℕ) (A : SqMat 𝕜 k) : matExp order A = taylor A (order + 1) := by
  unfold matExp
  cases order with
  | zero => simp [taylor]
  | succ j =>
    rw [if_pos (by omega), show ((j + 1 : ℕ) : ℤ).toNat - 1 = j by simp, expLoop_eq, taylor_succ' A (j + 1), ← pow_succ']

theorem multExpLoop_fst (A M : SqMat 𝕜 k) (j : ℕ) (s : SqMat 𝕜 k × SqMat 𝕜 k) : (multExpLoop A M j s).1 = expLoop A j s.1 := by
  induction j generalizing s with
  | zero => rfl
  | succ j ih => rw [multExpLoop, ih]; rfl

theorem multExpLoop_snd (A M : SqMat 𝕜 k) (j : ℕ) (s : SqMat 𝕜 k × SqMat 𝕜 k) :
    (multExpLoop A M j s).2 = dtaylor A M (j + 1) + (1 / ((j + 1)! : 𝕜)) • (s.2 * A ^ j + s.1 * dpow A M j) := by
  induction j generalizing s with
  | zero => simp [multExpLoop, dtaylor, dpow]
  | succ j ih =>
    rw [multExpLoop, ih, dtaylor_succ' A M (j + 1), add_assoc, ← fact_cast_succ]
    congr 1
    rw [dpow_left]
    dsimp only
    simp only [add_mul, mul_add, smul_add, smul_mul_assoc, one_mul, smul_smul, pow_succ', mul_assoc]
    abel

theorem multExp_eq (order : ℕ) (A M : SqMat 𝕜 k) : multExp order A M = (M * taylor A (order + 1), dtaylor A M (order + 1)) := by
  unfold multExp
  cases order with
  | zero => simp [taylor, dtaylor, dpow]
  | succ j =>
    rw [if_pos (by omega), show ((j + 1 : ℕ) : ℤ).toNat - 1 = j by simp]
    dsimp only
    rw [multExpLoop_fst, expLoop_eq, multExpLoop_snd, taylor_succ' A (j + 1), dtaylor_succ' A M (j + 1), ← pow_succ', ← dpow_left]

theorem dpow_trace (A M Z : SqMat 𝕜 k) (m : ℕ) : (dpow A M m * Z).trace = (M * dpow A Z m).trace := by
  unfold dpow
  rw [Finset.sum_mul, Finset.mul_sum, Matrix.trace_sum, Matrix.trace_sum, ← Finset.sum_range_reflect]
  refine Finset.sum_congr rfl fun a ha => ?_
  have := Finset.mem_range.1 ha
  rw [show m - 1 - (m - 1 - a) = a by omega]
  rw [mul_assoc, mul_assoc, Matrix.trace_mul_comm]
  simp only [mul_assoc]

theorem dtaylor_trace (A M Z : SqMat 𝕜 k) (J : ℕ) : (dtaylor A M J * Z).trace = (M * dtaylor A Z J).trace := by
  unfold dtaylor
  rw [Finset.sum_mul, Finset.mul_sum, Matrix.trace_sum, Matrix.trace_sum]
  refine Finset.sum_congr rfl fun m _ => ?_
  rw [smul_mul_assoc, mul_smul_comm, Matrix.trace_smul, Matrix.trace_smul, dpow_trace]

/-! ### The property -/

/-- **C106 (value).** `exp(A, order)` is the Taylor sum up to and including `A^order`, and one for orders below one. -/
theorem C106_exp (order : ℤ) (A : SqMat 𝕜 k) : matExp order A = taylorTo A order.toNat := by
  by_cases h : 0 ≤ order
  · obtain ⟨m, rfl⟩ := Int.eq_ofNat_of_zero_le h
    exact matExp_eq m A
  · unfold matExp
    rw [if_neg (by omega), show order.toNat = 0 by omega]
    simp [taylorTo]

/-- **C106 (accuracy).** The distance to the exponential function is at most `|A|^(order+1) / (order+1)! e^|A|`. -/
theorem C106_exp_error (order : ℤ) (A : SqMat 𝕜 k) :
    frob (matExp order A - NormedSpace.exp A) ≤ frob A ^ (order.toNat + 1) / ((order.toNat + 1)! : ℝ) * Real.exp (frob A) := by
  rw [C106_exp]
  exact taylor_exp_le A _ (by omega)

/-- **C106 (derivative).** `mult_exp(A, M, r, dr, order)` gives `r = M exp(A, order)` with the function `exp` of the library, and `dr`
is the derivative of the same polynomial: `tr(M exp(C, order))` changes by `tr(dr Z)` along every curve through `A` with
tangent `Z`. -/
theorem C106_mult_exp (order : ℤ) (A M : SqMat 𝕜 k) :
    (multExp order A M).1 = M * matExp order A ∧ ∀ (C : ℝ → SqMat 𝕜 k) (Z : SqMat 𝕜 k), C 0 = A → CurveDeriv C Z 0 →
      HasDerivAt (fun t => (M * matExp order (C t)).trace) ((multExp order A M).2 * Z).trace 0 := by
  by_cases h : 0 ≤ order
  · obtain ⟨m, rfl⟩ := Int.eq_ofNat_of_zero_le h
    have e : ((Int.ofNat m) : ℤ) = (m : ℤ) := rfl
    rw [multExp_eq, matExp_eq]
    refine ⟨rfl, fun C Z hC hZ => ?_⟩
    simp only [matExp_eq]
    rw [dtaylor_trace]
    have hd : MDer (fun t => taylor (C t) (m + 1)) (dtaylor (C 0) Z (m + 1)) 0 := MDer.taylor hZ (m + 1)
    rw [hC] at hd
    have hj : ∀ i j, HasDerivAt (fun t => M i j * taylor (C t) (m + 1) j i) (M i j * dtaylor A Z (m + 1) j i) 0 :=
      fun i j => (hd j i).const_mul (M i j)
    have hi : ∀ i, HasDerivAt (fun t => ∑ j, M i j * taylor (C t) (m + 1) j i) (∑ j, M i j * dtaylor A Z (m + 1) j i) 0 :=
      fun i => HasDerivAt.fun_sum fun j _ => hj i j
    have hs : HasDerivAt (fun t => ∑ i, ∑ j, M i j * taylor (C t) (m + 1) j i) (∑ i, ∑ j, M i j * dtaylor A Z (m + 1) j i) 0 :=
      HasDerivAt.fun_sum fun i _ => hi i
    exact hs
  · unfold multExp matExp
    have hn : ¬0 < order := by omega
    simp only [if_neg hn]
    refine ⟨(mul_one M).symm, fun C Z _ _ => ?_⟩
    simp only [zero_mul, Matrix.trace_zero]
    exact hasDerivAt_const (0 : ℝ) ((M * (1 : SqMat 𝕜 k)).trace)

theorem altLoop_res (rnd : ℝ → ℝ) (A : SqMat 𝕜 k) (f m : ℕ) (hm : 1 ≤ m) (r p : SqMat 𝕜 k) (hr : r = taylorTo A (m - 1))
    (hp : p = (1 / ((m - 1)! : 𝕜)) • A ^ (m - 1)) :
    ∃ K, (altLoop rnd A f m r p).1 = taylorTo A K ∧
      (∀ i, m ≤ i → i < K → rnd (frobSq (taylorTo A i)) ≠ rnd (frobSq (taylorTo A (i - 1)))) ∧
      (((altLoop rnd A f m r p).2 = K ∧ m ≤ K ∧ K < m + f ∧ rnd (frobSq (taylorTo A K)) = rnd (frobSq (taylorTo A (K - 1)))) ∨
        ((altLoop rnd A f m r p).2 = 1 ∧ K = m + f - 1 ∧
          (m ≤ K → rnd (frobSq (taylorTo A K)) ≠ rnd (frobSq (taylorTo A (K - 1)))))) := by
  induction f generalizing m r p with
  | zero => exact ⟨m - 1, hr, fun i h1 h2 => by omega, Or.inr ⟨rfl, by omega, fun h => by omega⟩⟩
  | succ f ih =>
    have hp' : (1 / (m : 𝕜)) • (p * A) = (1 / (m ! : 𝕜)) • A ^ m := by
      obtain ⟨j, rfl⟩ : ∃ j, m = j + 1 := ⟨m - 1, by omega⟩
      rw [hp, Nat.add_sub_cancel, smul_mul_assoc, smul_smul, ← pow_succ, Nat.factorial_succ, Nat.cast_mul, one_div, one_div, one_div,
        mul_inv]
    have hr' : r + (1 / (m : 𝕜)) • (p * A) = taylorTo A m := by
      rw [hp', hr]
      unfold taylorTo
      rw [Finset.sum_range_succ _ m, Nat.sub_add_cancel hm]
    rw [altLoop, hr']
    by_cases hc : rnd (frobSq (taylorTo A m)) = rnd (frobSq r)
    · rw [if_pos hc]
      refine ⟨m, rfl, fun i h1 h2 => by omega, Or.inl ⟨rfl, le_refl _, by omega, ?_⟩⟩
      rw [hc, hr]
    · rw [if_neg hc]
      obtain ⟨K, h1, h2, h3⟩ := ih (m + 1) (by omega) (taylorTo A m) ((1 / (m : 𝕜)) • (p * A)) rfl hp'
      rw [hr] at hc
      refine ⟨K, h1, fun i hi1 hi2 => ?_, ?_⟩
      · rcases Nat.eq_or_lt_of_le hi1 with e | e
        · subst e; exact hc
        · exact h2 i e hi2
      · rcases h3 with ⟨a, b, c, d⟩ | ⟨a, b, c⟩
        · exact Or.inl ⟨a, by omega, by omega, d⟩
        · refine Or.inr ⟨a, by omega, fun hK => ?_⟩
          rcases Nat.eq_or_lt_of_le hK with e | e
          · rw [← e]; exact hc
          · exact c e

/-- **C106 (the iteration).** `altexp` gives the Taylor sum up to the first order, from two on and below `15 n`, for which the
rounded squared norm of the sum is that of the sum before, and reports this order; if there is none, it gives the sum up to
`15 n - 1` and reports one. The distance to the exponential function is bounded by the first term left out. -/
theorem C106_altexp (rnd : ℝ → ℝ) (A : SqMat 𝕜 k) :
    ∃ K, (altExp rnd A).1 = taylorTo A K ∧ 2 ≤ K ∧ K < 15 * (k + 1) ∧
      (∀ i, 2 ≤ i → i < K → rnd (frobSq (taylorTo A i)) ≠ rnd (frobSq (taylorTo A (i - 1)))) ∧
      (((altExp rnd A).2 = K ∧ rnd (frobSq (taylorTo A K)) = rnd (frobSq (taylorTo A (K - 1)))) ∨
        ((altExp rnd A).2 = 1 ∧ K = 15 * (k + 1) - 1 ∧ rnd (frobSq (taylorTo A K)) ≠ rnd (frobSq (taylorTo A (K - 1))))) ∧
      frob ((altExp rnd A).1 - NormedSpace.exp A) ≤ frob A ^ (K + 1) / ((K + 1)! : ℝ) * Real.exp (frob A) := by
  obtain ⟨K, h1, h2, h3⟩ := altLoop_res rnd A ((k + 1) * 15 - 2) 2 (by omega) (A + 1) A
    (by simp [taylorTo, Finset.sum_range_succ, add_comm]) (by simp)
  have hK : 2 ≤ K ∧ K < 15 * (k + 1) := by
    rcases h3 with ⟨a, b, c, d⟩ | ⟨a, b, c⟩ <;> constructor <;> omega
  refine ⟨K, h1, hK.1, hK.2, h2, ?_, ?_⟩
  · rcases h3 with ⟨a, b, c, d⟩ | ⟨a, b, c⟩
    · exact Or.inl ⟨a, d⟩
    · exact Or.inr ⟨a, by omega, c hK.1⟩
  · unfold altExp
    rw [h1]
    exact taylor_exp_le A _ (by omega)

/-- **C106 (smearing and its force).** (partial: only if the iteration has ended by itself, see `C106_niter_wrong`) With the number that
`altexp` reports, `mult_exp` uses the same polynomial, so that the force of `nchm_stout_smear_force` belongs to the fields that
`nchm_stout_smear` has made. -/
theorem C106_consistent_partial (rnd : ℝ → ℝ) (A M : SqMat 𝕜 k) (h : (altExp rnd A).2 ≠ 1) :
    (multExp (altExp rnd A).2 A M).1 = M * (altExp rnd A).1 ∧ ∀ (C : ℝ → SqMat 𝕜 k) (Z : SqMat 𝕜 k), C 0 = A → CurveDeriv C Z 0 →
      HasDerivAt (fun t => (M * taylorTo (C t) (altExp rnd A).2).trace) ((multExp (altExp rnd A).2 A M).2 * Z).trace 0 := by
  obtain ⟨K, h1, -, -, -, h2, -⟩ := C106_altexp rnd A
  have h3 : (altExp rnd A).2 = K := by
    rcases h2 with h2 | h2
    · exact h2.1
    · exact absurd h2.1 h
  obtain ⟨a, b⟩ := C106_mult_exp ((altExp rnd A).2 : ℤ) A M
  refine ⟨?_, fun C Z hC hZ => ?_⟩
  · rw [a, C106_exp, h1, h3]; rfl
  · have := b C Z hC hZ
    simp only [C106_exp] at this
    exact this

/-- The iteration does end for the zero matrix, whose exponential is one. -/
example (rnd : ℝ → ℝ) : altExp rnd (0 : SqMat ℂ 1) = (1, 2) := by
  have e : (1 : SqMat ℂ 1) + (1 / (((2 : ℕ) : ℂ))) • ((0 : SqMat ℂ 1) * 0) = 1 := by simp
  unfold altExp
  rw [show (1 + 1) * 15 - 2 = 27 + 1 from rfl, altLoop, zero_add, e]
  exact if_pos rfl

/-! ### Where the iteration fails -/

/-- **C106 (negation).** `altexp` stops when the squared norms agree, and they can agree long before the sum has converged: for the
anti-Hermitian, traceless matrix `diag(2i, -2i)` the sums `1 + A` and `1 + A + A²/2` have the same norm, for any rounding.
The result `diag(-1 + 2i, -1 - 2i)` has the determinant 5, that of the exponential function is in SU(2). -/
theorem C106_altexp_wrong (rnd : ℝ → ℝ) :
    let A : SqMat ℂ 1 := !![2 * Complex.I, 0; 0, -(2 * Complex.I)]
    let R : SqMat ℂ 1 := !![-1 + 2 * Complex.I, 0; 0, -1 - 2 * Complex.I]
    A.conjTranspose = -A ∧ A.trace = 0 ∧ altExp rnd A = (R, 2) ∧ R.det = 5 ∧ R * R.conjTranspose = (5 : ℂ) • 1 := by
  intro A R
  have hI : Complex.I * Complex.I = -1 := Complex.I_mul_I
  have h2 : (starRingEnd ℂ) 2 = 2 := map_ofNat _ 2
  have e : A + 1 + (1 / (((2 : ℕ) : ℂ))) • (A * A) = R := by
    ext i j
    fin_cases i <;> fin_cases j <;> simp [A, R]
    · linear_combination 2 * hI
    · linear_combination 2 * hI
  have n1 : frobSq R = 10 := by
    simp only [frobSq, R, ← Complex.normSq_eq_norm_sq]
    simp [Complex.normSq_apply]
    norm_num
  have n2 : frobSq (A + 1) = 10 := by
    simp only [frobSq, A, ← Complex.normSq_eq_norm_sq]
    simp [Complex.normSq_apply]
    norm_num
  refine ⟨?_, ?_, ?_, ?_, ?_⟩
  · ext i j
    fin_cases i <;> fin_cases j <;> simp [A]
  · simp [A, Matrix.trace, Fin.sum_univ_two]
  · unfold altExp
    rw [show (1 + 1) * 15 - 2 = 27 + 1 from rfl, altLoop, e]
    exact if_pos (by rw [n1, n2])
  · rw [Matrix.det_fin_two_of]
    linear_combination (-4) * hI
  · ext i j
    fin_cases i <;> fin_cases j <;> simp [R, Matrix.mul_apply, Fin.sum_univ_two]
    · linear_combination (-4) * hI + (Complex.I - 2 * Complex.I * Complex.I) * h2
    · linear_combination (-4) * hI + (-Complex.I - 2 * Complex.I * Complex.I) * h2

theorem taylorTo_scalar (x : ℝ) (K : ℕ) :
    taylorTo ((x : 𝕜) • (1 : SqMat 𝕜 k)) K = (((∑ i ∈ Finset.range (K + 1), x ^ i / (i ! : ℝ) : ℝ)) : 𝕜) • (1 : SqMat 𝕜 k) := by
  unfold taylorTo
  push_cast
  rw [Finset.sum_smul]
  refine Finset.sum_congr rfl fun i _ => ?_
  rw [smul_pow, one_pow, smul_smul, one_div, div_eq_inv_mul]

theorem frobSq_scalar (x : ℝ) : frobSq ((x : 𝕜) • (1 : SqMat 𝕜 k)) = (k + 1) * x ^ 2 := by
  unfold frobSq
  have : ∀ i : Fin (k + 1), ∑ j, ‖((x : 𝕜) • (1 : SqMat 𝕜 k)) i j‖ ^ 2 = x ^ 2 := by
    intro i
    rw [Finset.sum_eq_single i]
    · simp [sq_abs]
    · intro j _ hj
      simp [Matrix.one_apply_ne hj.symm]
    · simp
  rw [Finset.sum_congr rfl fun i _ => this i]
  simp

/-- The terms at least double, so that the sum doubles as well. -/
theorem sum_doubles (x : ℝ) (K : ℕ) (hx : 2 * (K + 1 : ℝ) ≤ x) :
    ∑ i ∈ Finset.range (K + 1), x ^ i / (i ! : ℝ) ≤ x ^ (K + 1) / ((K + 1)! : ℝ) := by
  have h0 : (0 : ℝ) ≤ x := by
    have : (0 : ℝ) ≤ K := Nat.cast_nonneg K
    linarith
  induction K with
  | zero =>
    norm_num at hx ⊢
    linarith
  | succ K ih =>
    rw [Finset.sum_range_succ]
    push_cast at hx
    have h1 := ih (by linarith)
    have h2 : 2 * (x ^ (K + 1) / ((K + 1)! : ℝ)) ≤ x ^ (K + 1 + 1) / ((K + 1 + 1)! : ℝ) := by
      rw [Nat.factorial_succ (K + 1), pow_succ x (K + 1)]
      have e : x ^ (K + 1) * x / (((K + 1 + 1) * (K + 1)! : ℕ) : ℝ) = x / ((K : ℝ) + 2) * (x ^ (K + 1) / ((K + 1)! : ℝ)) := by
        push_cast
        rw [show (K : ℝ) + 1 + 1 = K + 2 by ring]
        field_simp
      rw [e]
      refine mul_le_mul_of_nonneg_right ?_ (by positivity)
      rw [le_div_iff₀ (by positivity)]
      linarith
    linarith

/-- **C106 (negation).** If the loop of `altexp` runs to its end, the reported number is one and not the number of terms. For the
matrix `30 n` times one and any rounding with a relative error of at most a quarter, the result has `15 n` terms and `niter` is
1. `mult_exp` with this order then takes `1 + A` for the exponential, so the force does not belong to the smeared field. -/
theorem C106_niter_wrong (rnd : ℝ → ℝ) (hrnd : ∀ y, 0 ≤ y → |rnd y - y| ≤ y / 4) :
    let A : SqMat 𝕜 k := ((30 * (k + 1) : ℝ) : 𝕜) • 1
    altExp rnd A = (taylorTo A (15 * (k + 1) - 1), 1) ∧ (∀ M, (multExp (altExp rnd A).2 A M).1 = M * (1 + A)) ∧
      (multExp (altExp rnd A).2 A 1).1 ≠ (altExp rnd A).1 := by
  intro A
  obtain ⟨x, hx⟩ : ∃ x : ℝ, x = 30 * (k + 1) := ⟨_, rfl⟩
  have hA : A = (x : 𝕜) • 1 := by rw [hx]
  have hk : (0 : ℝ) ≤ k := Nat.cast_nonneg k
  obtain ⟨T, hT⟩ : ∃ T : ℕ → ℝ, T = fun K => ∑ i ∈ Finset.range (K + 1), x ^ i / (i ! : ℝ) := ⟨_, rfl⟩
  have hx0 : 0 ≤ x := by rw [hx]; positivity
  have hT1 : ∀ K, 1 ≤ T K := by
    intro K
    rw [hT]
    dsimp only
    rw [Finset.sum_range_succ']
    have : 0 ≤ ∑ i ∈ Finset.range K, x ^ (i + 1) / ((i + 1)! : ℝ) := Finset.sum_nonneg fun i _ => by positivity
    norm_num
    exact this
  have hd : ∀ K, K + 1 < 15 * (k + 1) → 2 * T K ≤ T (K + 1) := by
    intro K hK
    have hK' : (K : ℝ) + 1 < 15 * (k + 1) := by exact_mod_cast hK
    have := sum_doubles x K (by rw [hx]; linarith)
    rw [hT]
    dsimp only
    rw [Finset.sum_range_succ _ (K + 1)]
    linarith
  have hs : ∀ K, frobSq (taylorTo A K) = (k + 1) * T K ^ 2 := by
    intro K
    rw [hA, taylorTo_scalar, frobSq_scalar, hT]
  have hne : ∀ K, 2 ≤ K → K < 15 * (k + 1) → rnd (frobSq (taylorTo A K)) ≠ rnd (frobSq (taylorTo A (K - 1))) := by
    intro K h2 hK he
    rw [hs, hs] at he
    obtain ⟨J, rfl⟩ : ∃ J, K = J + 1 := ⟨K - 1, by omega⟩
    rw [Nat.add_sub_cancel] at he
    have d := hd J hK
    have t := hT1 J
    have p1 := hrnd ((k + 1) * T (J + 1) ^ 2) (by positivity)
    have p2 := hrnd ((k + 1) * T J ^ 2) (by positivity)
    rw [he] at p1
    have q1 := (abs_le.1 p1).1
    have q2 := (abs_le.1 p2).2
    have q : (k + 1) * (2 * T J) ^ 2 ≤ (k + 1) * T (J + 1) ^ 2 :=
      mul_le_mul_of_nonneg_left (pow_le_pow_left₀ (by linarith) d 2) (by linarith)
    have pos : 0 < ((k : ℝ) + 1) * T J ^ 2 := by positivity
    nlinarith
  obtain ⟨K, h1, h2, h3, -, h4, -⟩ := C106_altexp rnd A
  have h5 : (altExp rnd A).2 = 1 ∧ K = 15 * (k + 1) - 1 := by
    rcases h4 with h4 | h4
    · exact absurd h4.2 (hne K h2 h3)
    · exact ⟨h4.1, h4.2.1⟩
  have hm : ∀ M, (multExp (altExp rnd A).2 A M).1 = M * (1 + A) := by
    intro M
    rw [h5.1, (C106_mult_exp _ A M).1, C106_exp]
    simp [taylorTo, Finset.sum_range_succ]
  refine ⟨Prod.ext (by rw [h1, h5.2]) h5.1, hm, ?_⟩
  rw [hm, h1, one_mul]
  intro he
  have e1 : (1 : SqMat 𝕜 k) + A = taylorTo A 1 := by simp [taylorTo, Finset.sum_range_succ]
  have e2 := congrArg frobSq he
  rw [e1, hs, hs] at e2
  have mono : ∀ j, 2 ≤ j → j < 15 * (k + 1) → 2 * T 1 ≤ T j := by
    intro j hj
    induction j, hj using Nat.le_induction with
    | base => exact fun h => hd 1 h
    | succ j hj ih =>
      intro h
      have := ih (by omega)
      have := hd j h
      have := hT1 j
      linarith
  have m := mono K h2 h3
  have t := hT1 1
  have q : ((k : ℝ) + 1) * (2 * T 1) ^ 2 ≤ (k + 1) * T K ^ 2 :=
    mul_le_mul_of_nonneg_left (pow_le_pow_left₀ (by linarith) m 2) (by linarith)
  have pos : 0 < ((k : ℝ) + 1) * T 1 ^ 2 := by positivity
  nlinarith

/-- Exact comparison is such a rounding. -/
example (y : ℝ) (h : 0 ≤ y) : |id y - y| ≤ y / 4 := by
  simp only [id, sub_self, abs_zero]
  linarith

/-- Straight lines are such curves: the derivative of `tr(M exp(A + t Z))` for the order of the library. -/
example (A M Z : SqMat ℂ 2) :
    HasDerivAt (fun t : ℝ => (M * matExp 20 (A + (t : ℂ) • Z)).trace) ((multExp 20 A M).2 * Z).trace 0 := by
  refine (C106_mult_exp 20 A M).2 (fun t => A + (t : ℂ) • Z) Z (by simp) fun a b => ?_
  have h : HasDerivAt (fun t : ℝ => (t : ℂ) * Z a b) (1 * Z a b) 0 := by
    simpa using (Complex.ofRealCLM.hasDerivAt (x := (0 : ℝ))).mul_const (Z a b)
  rw [one_mul] at h
  simpa using h.const_add (A a b)

end Hila
