import Verif.Lemmas.ChExp
import Mathlib.Analysis.Matrix.Normed
import Mathlib.Analysis.Normed.Algebra.MatrixExponential
import Mathlib.Analysis.SpecialFunctions.Exponential
import Mathlib.Topology.Algebra.Order.LiminfLimsup

/-!
# The iteration of `chexp` computes Taylor sums; distance of Taylor sums from the exponential function
-/

namespace Hila

open scoped Nat

variable {𝕜 : Type} [RCLike 𝕜] {k : ℕ}

/-- The sum of the first `J` terms of the exponential series. -/
noncomputable def taylor (B : SqMat 𝕜 k) (J : ℕ) : SqMat 𝕜 k := ∑ i ∈ Finset.range J, (1 / (i ! : 𝕜)) • B ^ i

/-! ### The iteration -/

/-- The coefficients of `X^m`. -/
def vpow (c : Fin (k + 2) → 𝕜) (m : ℕ) : Coef 𝕜 k := (mulX c)^[m] (Pi.single 0 1)

theorem vpow_succ (c : Fin (k + 2) → 𝕜) (m : ℕ) : vpow c (m + 1) = mulX c (vpow c m) := Function.iterate_succ_apply' _ _ _

theorem vpow_low (c : Fin (k + 2) → 𝕜) (m : ℕ) (hm : m < k + 1) : vpow c m = Pi.single (⟨m, hm⟩ : Fin (k + 1)) 1 := by
  induction m with
  | zero => rfl
  | succ m ih =>
    rw [vpow_succ, ih (by omega)]
    funext i
    unfold mulX
    rw [Pi.single_eq_of_ne (i := (⟨m, by omega⟩ : Fin (k + 1))) (i' := Fin.last k) (by rw [Ne, Fin.ext_iff]; simp; omega), zero_mul, sub_zero]
    by_cases h0 : i = 0
    · subst h0
      rw [if_pos rfl, Pi.single_eq_of_ne (by rw [Ne, Fin.ext_iff]; simp)]
    · rw [if_neg h0]
      have := one_le_val h0
      by_cases h1 : i.val = m + 1
      · obtain rfl : i = ⟨m + 1, hm⟩ := Fin.ext h1
        have : prv (⟨m + 1, hm⟩ : Fin (k + 1)) = ⟨m, by omega⟩ := Fin.ext (by simp [prv])
        rw [this, Pi.single_eq_same, Pi.single_eq_same]
      · rw [Pi.single_eq_of_ne (by rw [Ne, Fin.ext_iff]; simp only [prv]; omega), Pi.single_eq_of_ne (by rw [Ne, Fin.ext_iff]; exact h1)]

theorem evC_vpow (c : Fin (k + 2) → 𝕜) (B : SqMat 𝕜 k) (h : IsCharpoly c B) (m : ℕ) : evC B (vpow c m) = B ^ m := by
  unfold vpow
  rw [evC_iterate c B h]
  have : evC B (Pi.single 0 1 : Coef 𝕜 k) = 1 := by
    unfold evC
    rw [Finset.sum_eq_single 0]
    · simp
    · intro i _ hi
      rw [Pi.single_eq_of_ne hi, zero_smul]
    · simp
  rw [this, mul_one]

/-- The coefficients of the Taylor sum. -/
noncomputable def coefT (c : Fin (k + 2) → 𝕜) (J : ℕ) : Coef 𝕜 k := fun i => ∑ m ∈ Finset.range J, (1 / (m ! : 𝕜)) * vpow c m i

theorem evC_coefT (c : Fin (k + 2) → 𝕜) (B : SqMat 𝕜 k) (h : IsCharpoly c B) (J : ℕ) : evC B (coefT c J) = taylor B J := by
  unfold coefT taylor
  rw [evC_sum]
  exact Finset.sum_congr rfl fun m _ => by rw [evC_smul, evC_vpow c B h]

/-- What holds before pass `j`. -/
structure ChInv (c : Fin (k + 2) → 𝕜) (j : ℕ) (st : ChState 𝕜 k) : Prop where
  wpf : 0 < st.wpf
  rs : 0 < st.rs
  pal : ∀ i, ((st.wpf * st.rs : ℝ) : 𝕜) * st.pal i = 1 / (j ! : 𝕜) * vpow c (j - 1) i
  al : st.al = coefT c j

theorem chInit_inv (add : ℝ → ℝ → ℝ) (c : Fin (k + 2) → 𝕜) : ChInv c (k + 1) (chInit add : ChState 𝕜 k) := by
  have key := forUp_inv (n := k + 1) (lo := 0) (f := fun i (t : Coef 𝕜 k × ℝ × ℝ) =>
    (Function.update t.1 i (t.2.1 : 𝕜), t.2.1 / (i.val + 1 : ℝ), add t.2.2 (t.2.1 / (i.val + 1 : ℝ)))) (s := (0, 1, 1))
    (fun m t => (∀ i : Fin (k + 1), i.val < m → t.1 i = 1 / (i.val ! : 𝕜)) ∧ t.2.1 = 1 / (m ! : ℝ)) (by omega) ?_ ?_
  · obtain ⟨h1, h2⟩ := key
    have hfac : (0 : ℝ) < ((k + 1) ! : ℝ) := by exact_mod_cast Nat.factorial_pos _
    refine ⟨?_, one_pos, ?_, ?_⟩
    · show (0 : ℝ) < (forUp (k + 1) 0 _ _ : Coef 𝕜 k × ℝ × ℝ).2.1
      rw [h2]; positivity
    · intro i
      show (((forUp (k + 1) 0 _ _ : Coef 𝕜 k × ℝ × ℝ).2.1 * 1 : ℝ) : 𝕜) * (Function.update (0 : Coef 𝕜 k) (Fin.last k) 1) i = _
      rw [h2, mul_one, show k + 1 - 1 = k by omega, vpow_low c k (by omega)]
      push_cast
      congr 1
    · show (forUp (k + 1) 0 _ _ : Coef 𝕜 k × ℝ × ℝ).1 = _
      funext i
      rw [h1 i i.isLt]
      unfold coefT
      rw [Finset.sum_range, Finset.sum_eq_single i]
      · rw [vpow_low c i.val i.isLt, Pi.single_eq_same, mul_one]
      · intro m _ hm
        rw [vpow_low c m.val m.isLt, Pi.single_eq_of_ne (Ne.symm hm), mul_zero]
      · simp
  · exact ⟨fun i hi => absurd hi (by omega), by simp⟩
  · rintro m hm - ⟨a, w, t⟩ ⟨h1, h2⟩
    dsimp only at h1 h2 ⊢
    refine ⟨fun i hi => ?_, ?_⟩
    · by_cases him : i = ⟨m, hm⟩
      · subst him
        rw [Function.update_self, h2]
        push_cast
        rfl
      · rw [Function.update_of_ne him]
        have : i.val ≠ m := fun h => him (Fin.ext h)
        exact h1 i (by omega)
    · rw [h2, Nat.factorial_succ]
      push_cast
      rw [div_div, mul_comm]

/-- The number that is added to `twpf` in pass `j`. -/
noncomputable def passTerm (c : Fin (k + 2) → 𝕜) (j : ℕ) : ℝ := Real.sqrt (∑ i, ‖vpow c j i‖ ^ 2) / ((j + 1) ! : ℝ)

theorem chPass_inv (c : Fin (k + 2) → 𝕜) (j : ℕ) (hj : 1 ≤ j) (st : ChState 𝕜 k) (h : ChInv c j st) :
    ChInv c (j + 1) (chPass c j st).1 ∧ (chPass c j st).2 = passTerm c j ∧
      ∀ i, (st.wpf : 𝕜) * (chPass c j st).1.pal i = 1 / (j ! : 𝕜) * vpow c j i := by
  have hw := h.wpf
  have hr := h.rs
  have hj1 : (0 : ℝ) < (j + 1 : ℝ) := by positivity
  have hpal : ∀ i, (st.wpf : 𝕜) * ((st.rs : 𝕜) * mulX c st.pal i) = 1 / (j ! : 𝕜) * vpow c j i := by
    intro i
    have h1 : (st.wpf : 𝕜) * ((st.rs : 𝕜) * mulX c st.pal i) = mulX c (fun i => ((st.wpf * st.rs : ℝ) : 𝕜) * st.pal i) i := by
      rw [mulX_smul]; push_cast; ring
    rw [h1, funext h.pal, mulX_smul, ← vpow_succ, show j - 1 + 1 = j by omega]
  have hal : (fun i => st.al i + (st.wpf : 𝕜) * ((st.rs : 𝕜) * mulX c st.pal i)) = coefT c (j + 1) := by
    funext i
    rw [hpal, h.al]
    unfold coefT
    rw [Finset.sum_range_succ]
  have hfac : (0 : ℝ) < (j ! : ℝ) := by exact_mod_cast Nat.factorial_pos _
  have hfac' : (j ! : 𝕜) ≠ 0 := by exact_mod_cast (Nat.factorial_pos j).ne'
  have hs : st.wpf * Real.sqrt (∑ i, ‖(st.rs : 𝕜) * mulX c st.pal i‖ ^ 2) = Real.sqrt (∑ i, ‖vpow c j i‖ ^ 2) / (j ! : ℝ) := by
    have e1 : ∀ i, ‖vpow c j i‖ = (j ! : ℝ) * st.wpf * ‖(st.rs : 𝕜) * mulX c st.pal i‖ := by
      intro i
      have : vpow c j i = ((j ! : 𝕜)) * ((st.wpf : 𝕜) * ((st.rs : 𝕜) * mulX c st.pal i)) := by
        rw [hpal, ← mul_assoc, mul_one_div_cancel hfac', one_mul]
      rw [this, norm_mul, norm_mul, RCLike.norm_natCast, RCLike.norm_ofReal, abs_of_pos hw]
      ring
    simp only [e1, mul_pow, ← Finset.mul_sum]
    rw [Real.sqrt_mul (by positivity), Real.sqrt_mul (by positivity), Real.sqrt_sq hfac.le, Real.sqrt_sq hw.le]
    field_simp
  unfold chPass
  rw [chRow_eq]
  dsimp only
  have hpalj : ∀ i, (1 / (((j + 1) ! : ℕ) : 𝕜)) * vpow c j i = (1 / ((j + 1 : ℝ) : 𝕜)) * ((st.wpf : 𝕜) * ((st.rs : 𝕜) * mulX c st.pal i)) := by
    intro i
    rw [hpal, Nat.factorial_succ]
    push_cast
    have : (j : 𝕜) + 1 ≠ 0 := by exact_mod_cast Nat.succ_ne_zero j
    field_simp
  split_ifs with h1
  · refine ⟨⟨by dsimp only; positivity, by dsimp only; positivity, fun i => ?_, hal⟩, ?_, hpal⟩
    · dsimp only
      rw [show j + 1 - 1 = j by omega, hpalj]
      generalize Real.sqrt (∑ i, ‖(st.rs : 𝕜) * mulX c st.pal i‖ ^ 2) = s at h1 ⊢
      have hs0 : s ≠ 0 := by linarith
      have : st.wpf * (s / (j + 1 : ℝ)) * (1 / s) = 1 / (j + 1 : ℝ) * st.wpf := by field_simp
      rw [this]
      push_cast
      ring
    · dsimp only
      unfold passTerm
      rw [Nat.factorial_succ, mul_one, ← mul_div_assoc, hs, div_div]
      push_cast
      rw [mul_comm]
  · refine ⟨⟨by dsimp only; positivity, one_pos, fun i => ?_, hal⟩, ?_, hpal⟩
    · dsimp only
      rw [show j + 1 - 1 = j by omega, hpalj]
      push_cast
      ring
    · dsimp only
      unfold passTerm
      rw [Nat.factorial_succ, div_mul_eq_mul_div, hs, div_div]
      push_cast
      rw [mul_comm]

/-- The invariant does not depend on `twpf`. -/
theorem ChInv.twpf {c : Fin (k + 2) → 𝕜} {j : ℕ} {st : ChState 𝕜 k} (h : ChInv c j st) (t : ℝ) :
    ChInv c j { st with twpf := t } := ⟨h.wpf, h.rs, h.pal, h.al⟩

/-- The result of the loop: `J` terms, all passes or stopped by the test. -/
theorem chLoop_spec (add : ℝ → ℝ → ℝ) (c : Fin (k + 2) → 𝕜) (left j : ℕ) (hj : 1 ≤ j) (st : ChState 𝕜 k) (h : ChInv c j st) :
    ∃ J, ChInv c J (chLoop add c left j st).1 ∧ ((J = j + left ∧ (chLoop add c left j st).2 = J) ∨
      (j < J ∧ J ≤ j + left ∧ (chLoop add c left j st).2 + 1 = J ∧ ∃ t, add t (passTerm c (J - 1)) = t)) := by
  induction left generalizing j st with
  | zero => exact ⟨j, h, Or.inl ⟨rfl, rfl⟩⟩
  | succ left ih =>
    obtain ⟨h1, h2, h3⟩ := chPass_inv c j hj st h
    unfold chLoop
    dsimp only
    split_ifs with ht
    · refine ⟨j + 1, h1.twpf _, Or.inr ⟨by omega, by omega, rfl, st.twpf, ?_⟩⟩
      rw [Nat.add_sub_cancel, ← h2]
      exact ht.symm
    · obtain ⟨J, hJ, h4⟩ := ih (j + 1) (by omega) _ (h1.twpf (add st.twpf (chPass c j st).2))
      refine ⟨J, hJ, ?_⟩
      rcases h4 with ⟨h5, h6⟩ | ⟨h5, h6, h7, h8⟩
      · exact Or.inl ⟨by omega, h6⟩
      · exact Or.inr ⟨by omega, by omega, h7, h8⟩

/-! ### The norm -/

theorem matNorm_frob (A : SqMat 𝕜 k) : matNorm A = (letI := Matrix.frobeniusNormedAddCommGroup (m := Fin (k + 1)) (n := Fin (k + 1)) (α := 𝕜); ‖A‖) := by
  unfold matNorm
  rw [Matrix.frobenius_norm_def, Real.sqrt_eq_rpow]
  simp

theorem matNorm_nonneg (A : SqMat 𝕜 k) : 0 ≤ matNorm A := Real.sqrt_nonneg _

theorem matNorm_add (A B : SqMat 𝕜 k) : matNorm (A + B) ≤ matNorm A + matNorm B := by
  rw [matNorm_frob, matNorm_frob, matNorm_frob]
  let _ := Matrix.frobeniusNormedAddCommGroup (m := Fin (k + 1)) (n := Fin (k + 1)) (α := 𝕜)
  exact norm_add_le A B

theorem matNorm_mul (A B : SqMat 𝕜 k) : matNorm (A * B) ≤ matNorm A * matNorm B := by
  rw [matNorm_frob, matNorm_frob, matNorm_frob]
  exact Matrix.frobenius_norm_mul A B

theorem matNorm_smul (a : 𝕜) (A : SqMat 𝕜 k) : matNorm (a • A) = ‖a‖ * matNorm A := by
  unfold matNorm
  simp only [Matrix.smul_apply, smul_eq_mul, norm_mul, mul_pow, ← Finset.mul_sum]
  rw [Real.sqrt_mul (by positivity), Real.sqrt_sq (norm_nonneg a)]

theorem matNorm_zero : matNorm (0 : SqMat 𝕜 k) = 0 := by
  unfold matNorm
  simp

theorem matNorm_sum {ι : Type} (s : Finset ι) (f : ι → SqMat 𝕜 k) : matNorm (∑ i ∈ s, f i) ≤ ∑ i ∈ s, matNorm (f i) := by
  classical
  induction s using Finset.induction_on with
  | empty => simp [matNorm_zero]
  | insert a s ha ih =>
    rw [Finset.sum_insert ha, Finset.sum_insert ha]
    exact (matNorm_add _ _).trans (by linarith)

theorem matNorm_continuous : Continuous (matNorm : SqMat 𝕜 k → ℝ) := by
  unfold matNorm
  refine Real.continuous_sqrt.comp (continuous_finsetSum _ fun i _ => continuous_finsetSum _ fun j _ => ?_)
  exact ((continuous_id.matrix_elem i j).norm).pow 2

theorem matNorm_pow_mul (B M : SqMat 𝕜 k) (i : ℕ) : matNorm (B ^ i * M) ≤ matNorm B ^ i * matNorm M := by
  induction i with
  | zero => simp
  | succ i ih =>
    rw [pow_succ', mul_assoc, pow_succ', mul_assoc]
    exact (matNorm_mul _ _).trans (mul_le_mul_of_nonneg_left ih (matNorm_nonneg _))

theorem matNorm_mul_pow (B M : SqMat 𝕜 k) (i : ℕ) : matNorm (M * B ^ i) ≤ matNorm M * matNorm B ^ i := by
  induction i with
  | zero => simp
  | succ i ih =>
    rw [pow_succ, ← mul_assoc, pow_succ, ← mul_assoc]
    exact (matNorm_mul _ _).trans (mul_le_mul_of_nonneg_right ih (matNorm_nonneg _))

theorem matNorm_pow (B : SqMat 𝕜 k) (i : ℕ) (hi : 1 ≤ i) : matNorm (B ^ i) ≤ matNorm B ^ i := by
  obtain ⟨i, rfl⟩ : ∃ j, i = j + 1 := ⟨i - 1, by omega⟩
  rw [pow_succ, pow_succ (matNorm B)]
  exact matNorm_pow_mul B B i

/-! ### Taylor sums and the exponential function -/

theorem taylor_tendsto (B : SqMat 𝕜 k) : Filter.Tendsto (taylor B) Filter.atTop (nhds (NormedSpace.exp B)) := by
  let _ : NormedRing (SqMat 𝕜 k) := Matrix.linftyOpNormedRing
  let _ : NormedAlgebra 𝕜 (SqMat 𝕜 k) := Matrix.linftyOpNormedAlgebra
  let _ : NormedAlgebra ℝ (SqMat 𝕜 k) := Matrix.linftyOpNormedAlgebra
  let _ : NormedAlgebra ℚ (SqMat 𝕜 k) := Matrix.linftyOpNormedAlgebra
  have h := (NormedSpace.exp_series_hasSum_exp' (𝕂 := 𝕜) B).tendsto_sum_nat
  refine h.congr fun J => ?_
  unfold taylor
  exact Finset.sum_congr rfl fun i _ => by rw [one_div]

theorem exp_sum_le (x : ℝ) (hx : 0 ≤ x) (J : ℕ) : ∑ i ∈ Finset.range J, x ^ i / (i ! : ℝ) ≤ Real.exp x :=
  Real.sum_le_exp_of_nonneg hx J

theorem norm_inv_fac (i : ℕ) : ‖(1 / (i ! : 𝕜))‖ = 1 / (i ! : ℝ) := by
  rw [norm_div, norm_one, RCLike.norm_natCast]

theorem taylor_mul_le (B M : SqMat 𝕜 k) (J : ℕ) : matNorm (taylor B J * M) ≤ Real.exp (matNorm B) * matNorm M := by
  unfold taylor
  rw [Finset.sum_mul]
  refine (matNorm_sum _ _).trans ?_
  have h : ∀ i ∈ Finset.range J, matNorm ((1 / (i ! : 𝕜)) • B ^ i * M) ≤ matNorm B ^ i / (i ! : ℝ) * matNorm M := by
    intro i _
    rw [smul_mul_assoc, matNorm_smul, norm_inv_fac]
    have := matNorm_pow_mul B M i
    have hf : (0 : ℝ) ≤ 1 / (i ! : ℝ) := by positivity
    calc 1 / (i ! : ℝ) * matNorm (B ^ i * M) ≤ 1 / (i ! : ℝ) * (matNorm B ^ i * matNorm M) := mul_le_mul_of_nonneg_left this hf
      _ = _ := by ring
  refine (Finset.sum_le_sum h).trans ?_
  rw [← Finset.sum_mul]
  exact mul_le_mul_of_nonneg_right (exp_sum_le _ (matNorm_nonneg _) J) (matNorm_nonneg _)

theorem mul_taylor_le (B M : SqMat 𝕜 k) (J : ℕ) : matNorm (M * taylor B J) ≤ matNorm M * Real.exp (matNorm B) := by
  unfold taylor
  rw [Finset.mul_sum]
  refine (matNorm_sum _ _).trans ?_
  have h : ∀ i ∈ Finset.range J, matNorm (M * (1 / (i ! : 𝕜)) • B ^ i) ≤ matNorm M * (matNorm B ^ i / (i ! : ℝ)) := by
    intro i _
    rw [mul_smul_comm, matNorm_smul, norm_inv_fac]
    have := matNorm_mul_pow B M i
    have hf : (0 : ℝ) ≤ 1 / (i ! : ℝ) := by positivity
    calc 1 / (i ! : ℝ) * matNorm (M * B ^ i) ≤ 1 / (i ! : ℝ) * (matNorm M * matNorm B ^ i) := mul_le_mul_of_nonneg_left this hf
      _ = _ := by ring
  refine (Finset.sum_le_sum h).trans ?_
  rw [← Finset.mul_sum]
  exact mul_le_mul_of_nonneg_left (exp_sum_le _ (matNorm_nonneg _) J) (matNorm_nonneg _)

theorem mul_exp_le (B M : SqMat 𝕜 k) : matNorm (M * NormedSpace.exp B) ≤ matNorm M * Real.exp (matNorm B) :=
  le_of_tendsto ((matNorm_continuous.tendsto _).comp ((continuous_const.matrix_mul continuous_id).tendsto _ |>.comp (taylor_tendsto B)))
    (Filter.Eventually.of_forall fun J => mul_taylor_le B M J)

theorem taylor_diff_le (B : SqMat 𝕜 k) (J : ℕ) (hJ : 1 ≤ J) (M : ℕ) :
    matNorm (taylor B J - taylor B (J + M)) ≤ matNorm B ^ J / (J ! : ℝ) * Real.exp (matNorm B) := by
  have h1 : taylor B J - taylor B (J + M) = ∑ i ∈ Finset.range M, (-(1 / ((J + i) ! : 𝕜))) • B ^ (J + i) := by
    unfold taylor
    rw [Finset.sum_range_add, sub_add_cancel_left, ← Finset.sum_neg_distrib]
    exact Finset.sum_congr rfl fun i _ => by rw [neg_smul]
  rw [h1]
  refine (matNorm_sum _ _).trans ?_
  have h : ∀ i ∈ Finset.range M, matNorm ((-(1 / ((J + i) ! : 𝕜))) • B ^ (J + i)) ≤
      matNorm B ^ J / (J ! : ℝ) * (matNorm B ^ i / (i ! : ℝ)) := by
    intro i _
    rw [matNorm_smul, norm_neg, norm_inv_fac]
    have h2 := matNorm_pow B (J + i) (by omega)
    have h3 : (J ! : ℝ) * (i ! : ℝ) ≤ ((J + i) ! : ℝ) := by
      exact_mod_cast Nat.le_of_dvd (Nat.factorial_pos _) (Nat.factorial_mul_factorial_dvd_factorial_add J i)
    have hJf : (0 : ℝ) < (J ! : ℝ) * (i ! : ℝ) := by
      exact_mod_cast Nat.mul_pos (Nat.factorial_pos _) (Nat.factorial_pos _)
    have hnn : 0 ≤ matNorm B ^ (J + i) := pow_nonneg (matNorm_nonneg _) _
    calc 1 / ((J + i) ! : ℝ) * matNorm (B ^ (J + i)) ≤ 1 / ((J + i) ! : ℝ) * matNorm B ^ (J + i) :=
          mul_le_mul_of_nonneg_left h2 (by positivity)
      _ ≤ 1 / ((J ! : ℝ) * (i ! : ℝ)) * matNorm B ^ (J + i) :=
          mul_le_mul_of_nonneg_right (one_div_le_one_div_of_le hJf h3) hnn
      _ = _ := by rw [pow_add]; field_simp
  refine (Finset.sum_le_sum h).trans ?_
  rw [← Finset.mul_sum]
  exact mul_le_mul_of_nonneg_left (exp_sum_le _ (matNorm_nonneg _) M) (by have := matNorm_nonneg B; positivity)

theorem taylor_exp_le (B : SqMat 𝕜 k) (J : ℕ) (hJ : 1 ≤ J) :
    matNorm (taylor B J - NormedSpace.exp B) ≤ matNorm B ^ J / (J ! : ℝ) * Real.exp (matNorm B) := by
  have h := (taylor_tendsto B).comp (Filter.tendsto_add_atTop_nat J)
  refine le_of_tendsto ((matNorm_continuous.tendsto _).comp (h.const_sub (taylor B J))) (Filter.Eventually.of_forall fun M => ?_)
  have := taylor_diff_le B J hJ M
  rw [add_comm J M] at this
  exact this

/-- Powers of a Taylor sum and of the exponential function. -/
theorem power_diff_le (B : SqMat 𝕜 k) (J m : ℕ) (hJ : 1 ≤ J) :
    matNorm (taylor B J ^ m - NormedSpace.exp B ^ m) ≤ m * Real.exp (m * matNorm B) * (matNorm B ^ J / (J ! : ℝ)) := by
  have hb := matNorm_nonneg B
  have hq : 0 ≤ matNorm B ^ J / (J ! : ℝ) := by positivity
  induction m with
  | zero => simp [matNorm_zero]
  | succ m ih =>
    have hYm : ∀ M : SqMat 𝕜 k, matNorm (M * NormedSpace.exp B ^ m) ≤ matNorm M * Real.exp (m * matNorm B) := by
      intro M
      clear ih
      induction m with
      | zero => simp
      | succ m ih' =>
        rw [pow_succ, ← mul_assoc]
        refine (mul_exp_le _ _).trans ?_
        refine (mul_le_mul_of_nonneg_right ih' (Real.exp_pos _).le).trans (le_of_eq ?_)
        rw [mul_assoc, ← Real.exp_add]
        congr 2
        push_cast; ring
    have h1 : taylor B J ^ (m + 1) - NormedSpace.exp B ^ (m + 1) =
        taylor B J * (taylor B J ^ m - NormedSpace.exp B ^ m) + (taylor B J - NormedSpace.exp B) * NormedSpace.exp B ^ m := by
      rw [pow_succ', pow_succ', mul_sub, sub_mul]; abel
    rw [h1]
    refine (matNorm_add _ _).trans ?_
    have h2 := (taylor_mul_le B (taylor B J ^ m - NormedSpace.exp B ^ m) J).trans
      (mul_le_mul_of_nonneg_left ih (Real.exp_pos _).le)
    have h3 := (hYm (taylor B J - NormedSpace.exp B)).trans
      (mul_le_mul_of_nonneg_right (taylor_exp_le B J hJ) (Real.exp_pos _).le)
    refine (add_le_add h2 h3).trans (le_of_eq ?_)
    have e1 : Real.exp (((m + 1 : ℕ) : ℝ) * matNorm B) = Real.exp (matNorm B) * Real.exp (m * matNorm B) := by
      rw [← Real.exp_add]; congr 1; push_cast; ring
    rw [e1]
    push_cast
    ring

/-- If `B ^ J = 0` the Taylor sum is the exponential function. -/
theorem taylor_of_nilpotent (B : SqMat 𝕜 k) (J : ℕ) (h : B ^ J = 0) : taylor B J = NormedSpace.exp B := by
  refine tendsto_nhds_unique ?_ (taylor_tendsto B)
  refine tendsto_const_nhds.congr' ?_
  filter_upwards [Filter.eventually_ge_atTop J] with M hM
  obtain ⟨r, rfl⟩ := Nat.exists_eq_add_of_le hM
  unfold taylor
  rw [Finset.sum_range_add, Finset.sum_eq_zero (s := Finset.range r), add_zero]
  intro i _
  rw [pow_add, h, zero_mul, smul_zero]

/-! ### Scaling -/

theorem scaleCount_spec (A : SqMat 𝕜 k) : matNorm A * (1 / 2) ^ scaleCount A < Real.sqrt 2 ∧
    ∀ m < scaleCount A, Real.sqrt 2 ≤ matNorm A * (1 / 2) ^ m := by
  classical
  unfold scaleCount
  refine ⟨not_le.1 (Nat.find_spec (exists_scale (matNorm A))), fun m hm => ?_⟩
  exact not_not.1 (Nat.find_min (exists_scale (matNorm A)) hm)

theorem scaled_norm (A : SqMat 𝕜 k) : matNorm (scaled A) = matNorm A * (1 / 2) ^ scaleCount A := by
  unfold scaled
  rw [matNorm_smul, RCLike.norm_ofReal, abs_of_pos (by positivity), mul_comm]

theorem scaled_exp (A : SqMat 𝕜 k) : NormedSpace.exp (scaled A) ^ 2 ^ scaleCount A = NormedSpace.exp A := by
  rw [← Matrix.exp_nsmul]
  congr 1
  unfold scaled
  rw [← Nat.cast_smul_eq_nsmul 𝕜, smul_smul]
  have : (((2 ^ scaleCount A : ℕ) : 𝕜)) * (((1 / 2 : ℝ) ^ scaleCount A : ℝ) : 𝕜) = 1 := by
    push_cast
    rw [← mul_pow]
    norm_num
  rw [this, one_smul]

end Hila
