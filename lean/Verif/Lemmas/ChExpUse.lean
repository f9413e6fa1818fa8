import Verif.Lemmas.ChExpD
import Mathlib.LinearAlgebra.Matrix.Charpoly.Coeff
import Mathlib.Analysis.Normed.Algebra.MatrixExponential

/-!
# Lemmas on the functions that use the derivative of the Cayley-Hamilton exponential
-/

namespace Hila

open scoped Nat

variable {𝕜 : Type} [RCLike 𝕜] {k : ℕ}

/-! ### Repeated squaring -/

theorem chKSquare_iterate_al (c : Fin (k + 2) → 𝕜) (t : Coef 𝕜 k × SqMat 𝕜 k × SqMat 𝕜 k) (r : ℕ) :
    ((chKSquare c)^[r] t).1 = (chSquare c)^[r] t.1 := by
  induction r with
  | zero => rfl
  | succ r ih => rw [Function.iterate_succ_apply', Function.iterate_succ_apply', (chKSquare_eq c _).1, ih]

theorem evK_squares (c : Fin (k + 2) → 𝕜) (B : SqMat 𝕜 k) (h : IsCharpoly c B) (Z : SqMat 𝕜 k) (t : Coef 𝕜 k × SqMat 𝕜 k × SqMat 𝕜 k) (r : ℕ) :
    evK B (symU ((chKSquare c)^[r] t).2.1) Z = (1 / 2 : 𝕜) ^ r • dpow (evC B t.1) (evK B (symU t.2.1) Z) (2 ^ r) := by
  induction r with
  | zero => simp [dpow]
  | succ r ih =>
    rw [Function.iterate_succ_apply', evK_square c B h, ih, chKSquare_iterate_al, evC_squares c B h]
    generalize evC B t.1 = E
    generalize evK B (symU t.2.1) Z = D
    rw [smul_mul_assoc, mul_smul_comm, ← smul_add, smul_smul, ← pow_succ', pow_succ 2 r, mul_two]
    congr 1
    unfold dpow
    rw [Finset.sum_range_add, Finset.sum_mul, Finset.mul_sum]
    congr 1
    · refine Finset.sum_congr rfl fun a ha => ?_
      have := Finset.mem_range.1 ha
      rw [mul_assoc, ← pow_add, show 2 ^ r - 1 - a + 2 ^ r = 2 ^ r + 2 ^ r - 1 - a by omega]
    · refine Finset.sum_congr rfl fun a ha => ?_
      have := Finset.mem_range.1 ha
      rw [← mul_assoc, ← mul_assoc, ← pow_add, show 2 ^ r - 1 - a = 2 ^ r + 2 ^ r - 1 - (2 ^ r + a) by omega]

/-! ### Derivatives along curves -/

/-- The elements of the matrix `f` have the derivatives `f'` at `t`. -/
def MDer (f : ℝ → SqMat 𝕜 k) (f' : SqMat 𝕜 k) (t : ℝ) : Prop := ∀ a b, HasDerivAt (fun s => f s a b) (f' a b) t

theorem MDer.mul {f g : ℝ → SqMat 𝕜 k} {f' g' : SqMat 𝕜 k} {t : ℝ} (hf : MDer f f' t) (hg : MDer g g' t) :
    MDer (fun s => f s * g s) (f' * g t + f t * g') t := by
  intro a b
  have h : HasDerivAt (fun s => ∑ c, f s a c * g s c b) (∑ c, (f' a c * g t c b + f t a c * g' c b)) t :=
    HasDerivAt.fun_sum fun c _ => (hf a c).mul (hg c b)
  rw [Finset.sum_add_distrib] at h
  exact h

theorem MDer.smul {f : ℝ → SqMat 𝕜 k} {f' : SqMat 𝕜 k} {t : ℝ} (c : 𝕜) (hf : MDer f f' t) : MDer (fun s => c • f s) (c • f') t := by
  intro a b
  exact (hf a b).const_mul c

theorem MDer.sum {ι : Type} (s : Finset ι) {f : ι → ℝ → SqMat 𝕜 k} {f' : ι → SqMat 𝕜 k} {t : ℝ} (h : ∀ i ∈ s, MDer (f i) (f' i) t) :
    MDer (fun x => ∑ i ∈ s, f i x) (∑ i ∈ s, f' i) t := by
  intro a b
  have : HasDerivAt (fun x => ∑ i ∈ s, f i x a b) (∑ i ∈ s, f' i a b) t := HasDerivAt.fun_sum fun i hi => h i hi a b
  simpa only [Matrix.sum_apply] using this

theorem MDer.pow {f : ℝ → SqMat 𝕜 k} {f' : SqMat 𝕜 k} {t : ℝ} (hf : MDer f f' t) (m : ℕ) : MDer (fun s => f s ^ m) (dpow (f t) f' m) t := by
  induction m with
  | zero =>
    intro a b
    simp only [pow_zero, dpow, Finset.range_zero, Finset.sum_empty]
    exact hasDerivAt_const t _
  | succ m ih =>
    have h := ih.mul hf
    have e : dpow (f t) f' m * f t + f t ^ m * f' = dpow (f t) f' (m + 1) := by
      unfold dpow
      rw [Finset.sum_range_succ, Finset.sum_mul, show m + 1 - 1 - m = 0 by omega, pow_zero, mul_one]
      congr 1
      refine Finset.sum_congr rfl fun a ha => ?_
      have := Finset.mem_range.1 ha
      rw [mul_assoc, ← pow_succ, show m - 1 - a + 1 = m + 1 - 1 - a by omega]
    rw [e] at h
    intro a b
    have := h a b
    simpa only [pow_succ] using this

theorem MDer.taylor {f : ℝ → SqMat 𝕜 k} {f' : SqMat 𝕜 k} {t : ℝ} (hf : MDer f f' t) (J : ℕ) :
    MDer (fun s => Hila.taylor (f s) J) (dtaylor (f t) f' J) t := by
  unfold Hila.taylor dtaylor
  exact MDer.sum _ fun i _ => (hf.pow i).smul _

theorem dpow_smul (B Z : SqMat 𝕜 k) (c : 𝕜) (m : ℕ) : dpow B (c • Z) m = c • dpow B Z m := by
  unfold dpow
  rw [Finset.smul_sum]
  exact Finset.sum_congr rfl fun a _ => by rw [mul_smul_comm, smul_mul_assoc]

theorem dtaylor_smul (B Z : SqMat 𝕜 k) (c : 𝕜) (J : ℕ) : dtaylor B (c • Z) J = c • dtaylor B Z J := by
  unfold dtaylor
  rw [Finset.smul_sum]
  exact Finset.sum_congr rfl fun a _ => by rw [dpow_smul, smul_comm]

/-! ### Traces -/

theorem sum_lt_succ {M : Type} [AddCommMonoid M] (g : Fin (k + 1) → M) (m : ℕ) (hm : m < k + 1) :
    (∑ j : Fin (k + 1), if j.val < m + 1 then g j else 0) = g ⟨m, hm⟩ + ∑ j : Fin (k + 1), if j.val < m then g j else 0 := by
  rw [← Finset.add_sum_erase _ (fun j : Fin (k + 1) => if j.val < m + 1 then g j else 0) (Finset.mem_univ (⟨m, hm⟩ : Fin (k + 1))),
    ← Finset.add_sum_erase _ (fun j : Fin (k + 1) => if j.val < m then g j else 0) (Finset.mem_univ (⟨m, hm⟩ : Fin (k + 1)))]
  dsimp only
  rw [if_pos (Nat.lt_succ_self m), if_neg (lt_irrefl m), zero_add]
  congr 1
  refine Finset.sum_congr rfl fun j hj => ?_
  have : j.val ≠ m := fun h => (Finset.ne_of_mem_erase hj) (Fin.ext h)
  split_ifs <;> first | rfl | (exfalso; omega)

theorem kComb_eq (kmats : SqMat 𝕜 k) (pl : Fin (k + 1) → SqMat 𝕜 k) (B : SqMat 𝕜 k)
    (hpl : ∀ i : Fin (k + 1), 1 ≤ i.val → pl i = B ^ i.val) (i : Fin (k + 1)) :
    kComb kmats pl i = ∑ j : Fin (k + 1), symU kmats i j • B ^ j.val := by
  have hscal : ∀ a : 𝕜, Matrix.scalar (Fin (k + 1)) a = a • (1 : SqMat 𝕜 k) := fun a => by
    rw [Matrix.smul_one_eq_diagonal]; rfl
  unfold kComb
  by_cases hi : i.val = 0
  · have hi0 : i = 0 := Fin.ext hi
    subst hi0
    rw [if_pos (show ((0 : Fin (k + 1)) : ℕ) = 0 from rfl)]
    have key := forUp_inv (n := k + 1) (lo := 1) (f := fun j (m : SqMat 𝕜 k) => kmats 0 j • pl j + m) (s := Matrix.scalar _ (kmats 0 0))
      (fun m M => M = ∑ j : Fin (k + 1), if j.val < m then symU kmats 0 j • B ^ j.val else 0) (by omega) ?_ ?_
    · rw [key]
      exact Finset.sum_congr rfl fun j _ => by rw [if_pos j.isLt]
    · rw [Finset.sum_eq_single 0]
      · rw [if_pos (by simp), symU_upper _ le_rfl, hscal]; simp
      · intro j _ hj
        rw [if_neg (by have := one_le_val hj; omega)]
      · simp
    · intro m hm hl M hM
      rw [hM, hpl _ hl, sum_lt_succ _ m hm, symU_upper _ (Fin.zero_le _)]
  · rw [if_neg hi]
    have key1 := forUp_inv (n := i.val) (lo := 1) (f := fun j (m : SqMat 𝕜 k) =>
        kmats ⟨j.val, by omega⟩ i • pl ⟨j.val, by omega⟩ + m) (s := Matrix.scalar _ (kmats 0 i))
      (fun m M => M = ∑ j : Fin (k + 1), if j.val < m then symU kmats i j • B ^ j.val else 0) (by omega) ?_ ?_
    · rw [key1]
      have key := forUp_inv (n := k + 1) (lo := i.val) (f := fun j (m : SqMat 𝕜 k) => kmats i j • pl j + m)
        (s := ∑ j : Fin (k + 1), if j.val < i.val then symU kmats i j • B ^ j.val else 0)
        (fun m M => M = ∑ j : Fin (k + 1), if j.val < m then symU kmats i j • B ^ j.val else 0) (by omega) rfl ?_
      · rw [key]
        exact Finset.sum_congr rfl fun j _ => by rw [if_pos j.isLt]
      · intro m hm hl M hM
        rw [hM, hpl ⟨m, hm⟩ (by simp only; omega), sum_lt_succ _ m hm, symU_upper _ (Fin.le_def.2 hl)]
    · rw [Finset.sum_eq_single 0]
      · rw [if_pos (by simp), symU_comm, symU_upper _ (Fin.zero_le _), hscal]; simp
      · intro j _ hj
        rw [if_neg (by have := one_le_val hj; omega)]
      · simp
    · intro m hm hl M hM
      dsimp only
      rw [hM, hpl ⟨m, by omega⟩ hl, sum_lt_succ _ m (by omega), symU_comm kmats i, symU_upper kmats (i := ⟨m, by omega⟩) (Fin.le_def.2 hm.le)]

theorem kTrace_eq (kmats : SqMat 𝕜 k) (pl : Fin (k + 1) → SqMat 𝕜 k) (B : SqMat 𝕜 k)
    (hpl : ∀ i : Fin (k + 1), 1 ≤ i.val → pl i = B ^ i.val) (T : SqMat 𝕜 k) : kTrace kmats pl T = evK B (symU kmats) T := by
  have hrow : ∀ i : Fin (k + 1), B ^ i.val * T * kComb kmats pl i = ∑ j : Fin (k + 1), symU kmats i j • (B ^ i.val * T * B ^ j.val) := by
    intro i
    rw [kComb_eq kmats pl B hpl, Finset.mul_sum]
    exact Finset.sum_congr rfl fun j _ => by rw [mul_smul_comm]
  unfold kTrace evK
  have key := forUp_inv (n := k + 1) (lo := 1) (f := fun i (m : SqMat 𝕜 k) => pl i * T * kComb kmats pl i + m) (s := T * kComb kmats pl 0)
    (fun m M => M = ∑ i : Fin (k + 1), if i.val < m then ∑ j : Fin (k + 1), symU kmats i j • (B ^ i.val * T * B ^ j.val) else 0) (by omega) ?_ ?_
  · rw [key]
    exact Finset.sum_congr rfl fun j _ => by rw [if_pos j.isLt]
  · rw [Finset.sum_eq_single 0]
    · rw [if_pos (by simp), ← hrow]; simp
    · intro j _ hj
      rw [if_neg (by have := one_le_val hj; omega)]
    · simp
  · intro m hm hl M hM
    rw [hM, hpl _ hl, hrow ⟨m, hm⟩, sum_lt_succ _ m hm]

theorem evK_trace (B K T Z : SqMat 𝕜 k) (hK : ∀ i j, K i j = K j i) : (evK B K T * Z).trace = (T * evK B K Z).trace := by
  unfold evK
  rw [Finset.sum_mul, Matrix.trace_sum, Finset.mul_sum, Matrix.trace_sum]
  simp only [Finset.sum_mul, Finset.mul_sum, Matrix.trace_sum, smul_mul_assoc, mul_smul_comm, Matrix.trace_smul]
  rw [Finset.sum_comm]
  refine Finset.sum_congr rfl fun j _ => Finset.sum_congr rfl fun i _ => ?_
  rw [hK i j]
  congr 1
  rw [show B ^ i.val * T * B ^ j.val * Z = B ^ i.val * (T * B ^ j.val * Z) by simp only [mul_assoc], Matrix.trace_mul_comm]
  simp only [mul_assoc]

theorem evK_single (B K : SqMat 𝕜 k) (hK : ∀ i j, K i j = K j i) (p q a b : Fin (k + 1)) :
    evK B K (Matrix.single p q 1) a b = ∑ i : Fin (k + 1), (B ^ i.val) q b * ∑ j : Fin (k + 1), K i j * (B ^ j.val) a p := by
  unfold evK
  simp only [Matrix.sum_apply, Matrix.smul_apply]
  rw [Finset.sum_comm]
  refine Finset.sum_congr rfl fun i _ => ?_
  rw [Finset.mul_sum]
  refine Finset.sum_congr rfl fun j _ => ?_
  have : (B ^ j.val * (Matrix.single p q 1 : SqMat 𝕜 k) * B ^ i.val : SqMat 𝕜 k) a b = (B ^ j.val) a p * (B ^ i.val) q b := by
    rw [Matrix.mul_assoc, Matrix.mul_apply, Finset.sum_eq_single p]
    · rw [Matrix.single_mul_apply_same, one_mul]
    · intro c _ hc
      rw [Matrix.single_mul_apply_of_ne (h := hc), mul_zero]
    · simp
  rw [this, hK j i, smul_eq_mul]
  ring

end Hila
