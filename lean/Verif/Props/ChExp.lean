import Verif.Lemmas.ChExpRes

/-!
# C61: the Cayley-Hamilton exponential and its derivative

The value is the Taylor polynomial of the scaled matrix, squared `nb` times, for every rounding of the test that stops the
iteration; its distance to `exp` is bounded. `kmats` is the derivative of the same polynomial. `chsexp` is wrong.
-/

namespace Hila

open scoped Nat

variable {𝕜 : Type} [RCLike 𝕜] {k : ℕ}

/-! ### Specification -/

/-- The Frobenius norm. -/
noncomputable def frob (A : SqMat 𝕜 k) : ℝ := Real.sqrt (∑ i, ∑ j, ‖A i j‖ ^ 2)

/-- `(Σ_{i<J} (A / 2^nb)^i / i!)^(2^nb)`. -/
noncomputable def squaredTaylor (A : SqMat 𝕜 k) (nb J : ℕ) : SqMat 𝕜 k :=
  (∑ i ∈ Finset.range J, (1 / (i ! : 𝕜)) • (((1 / 2 : 𝕜) ^ nb) • A) ^ i) ^ 2 ^ nb

/-- The linear map of the coefficients `K`: `Σ K_ij (A / 2^nb)^i Z (A / 2^nb)^j`, where only the upper triangle of `K` is
read and `K_ji = K_ij`. -/
def applyK (A : SqMat 𝕜 k) (nb : ℕ) (K Z : SqMat 𝕜 k) : SqMat 𝕜 k :=
  ∑ i : Fin (k + 1), ∑ j : Fin (k + 1), (if i ≤ j then K i j else K j i) • ((((1 / 2 : 𝕜) ^ nb) • A) ^ i.val * Z * (((1 / 2 : 𝕜) ^ nb) • A) ^ j.val)

/-- `nb` is the smallest number of halvings that make the norm smaller than `√2`. -/
def IsScaling (A : SqMat 𝕜 k) (nb : ℕ) : Prop := frob A * (1 / 2) ^ nb < Real.sqrt 2 ∧ ∀ m < nb, Real.sqrt 2 ≤ frob A * (1 / 2) ^ m

/-- The derivative of a curve of matrices, element by element. -/
def CurveDeriv (f : ℝ → SqMat 𝕜 k) (f' : SqMat 𝕜 k) (t : ℝ) : Prop := ∀ a b, HasDerivAt (fun s => f s a b) (f' a b) t

/-! ### Connection to the model -/

theorem frob_eq (A : SqMat 𝕜 k) : frob A = matNorm A := rfl

theorem scaled_eq (A : SqMat 𝕜 k) : scaled A = ((1 / 2 : 𝕜) ^ scaleCount A) • A := by
  unfold scaled; push_cast; rfl

theorem squaredTaylor_eq (A : SqMat 𝕜 k) (J : ℕ) : squaredTaylor A (scaleCount A) J = taylor (scaled A) J ^ 2 ^ scaleCount A := by
  unfold squaredTaylor taylor
  rw [scaled_eq]

theorem applyK_eq (A K Z : SqMat 𝕜 k) : applyK A (scaleCount A) K Z = evK (scaled A) (symU K) Z := by
  unfold applyK evK symU
  rw [scaled_eq]
  rfl

theorem isScaling (A : SqMat 𝕜 k) : IsScaling A (scaleCount A) := scaleCount_spec A

theorem isScaling_unique (A : SqMat 𝕜 k) {m n : ℕ} (hm : IsScaling A m) (hn : IsScaling A n) : m = n := by
  rcases lt_trichotomy m n with h | h | h
  · exact absurd (hn.2 m h) (not_le.2 hm.1)
  · exact h
  · exact absurd (hm.2 n h) (not_le.2 hn.1)

theorem res_error (A : SqMat 𝕜 k) (J : ℕ) (hJ : 1 ≤ J) :
    frob (taylor (scaled A) J ^ 2 ^ scaleCount A - NormedSpace.exp A) ≤
      2 ^ scaleCount A * Real.exp (frob A) * ((frob A * (1 / 2) ^ scaleCount A) ^ J / (J ! : ℝ)) := by
  have h := power_diff_le (scaled A) J (2 ^ scaleCount A) hJ
  rw [scaled_exp, scaled_norm] at h
  have e : ((2 ^ scaleCount A : ℕ) : ℝ) * (matNorm A * (1 / 2) ^ scaleCount A) = matNorm A := by
    push_cast
    rw [mul_left_comm, ← mul_pow]; norm_num
  rw [e] at h
  push_cast at h
  exact h

/-! ### Value -/

/-- **C61 (value).** For every size from 2 on, every matrix, every contents of the work array and every rounding of the
sum in the stopping test, the result of `chexp` is `(Σ_{i<J} (A/2^nb)^i/i!)^(2^nb)`, where `nb` is the smallest number of
halvings that bring the norm below `√2` and `J` is between `n` and `25 n`; the error is bounded. -/
theorem C61_chexp_value (hk : 1 ≤ k) (add : ℝ → ℝ → ℝ) (junk : Fin (k + 1) → SqMat 𝕜 k) (A : SqMat 𝕜 k) :
    ∃ R ret nb J, chexp add junk A = some (R, ret) ∧ IsScaling A nb ∧ k + 1 ≤ J ∧ J ≤ 25 * (k + 1) ∧ R = squaredTaylor A nb J ∧
      frob (R - NormedSpace.exp A) ≤ 2 ^ nb * Real.exp (frob A) * ((frob A * (1 / 2) ^ nb) ^ J / (J ! : ℝ)) := by
  obtain ⟨J, ret, h1, h2⟩ := chexp_res hk add junk A
  have hJ : k + 1 ≤ J ∧ J ≤ 25 * (k + 1) := by
    rcases h2 with ⟨h, -⟩ | ⟨h, h', -⟩ <;> omega
  exact ⟨_, _, scaleCount A, J, h1, isScaling A, hJ.1, hJ.2, (squaredTaylor_eq A J).symm, res_error A J (by omega)⟩

/-- **C61 (accuracy).** If the sum of the stopping test is exact, the error is at most
`(1 + √2 |A|) exp |A| √2^(25 n) / (25 n)!`; for `n = 2` the last factor is smaller than `10^-56`. -/
theorem C61_chexp_exact (hk : 1 ≤ k) (junk : Fin (k + 1) → SqMat 𝕜 k) (A : SqMat 𝕜 k) :
    ∃ R ret, chexp (fun a b => a + b) junk A = some (R, ret) ∧
      frob (R - NormedSpace.exp A) ≤ (1 + Real.sqrt 2 * frob A) * Real.exp (frob A) * (Real.sqrt 2 ^ (25 * (k + 1)) / ((25 * (k + 1)) ! : ℝ)) := by
  have hf : 0 ≤ frob A := matNorm_nonneg A
  obtain ⟨J, ret, h1, h2⟩ := chexp_res hk (fun a b => a + b) junk A
  refine ⟨_, _, h1, ?_⟩
  rcases h2 with ⟨rfl, -⟩ | ⟨h3, h4, -, c, hc, t, ht⟩
  · refine (res_error A _ (by omega)).trans ?_
    obtain ⟨s1, s2⟩ := isScaling A
    refine mul_le_mul (mul_le_mul_of_nonneg_right ?_ (Real.exp_pos _).le) ?_ (by positivity) (by positivity)
    · rcases Nat.eq_zero_or_pos (scaleCount A) with h0 | h0
      · rw [h0, pow_zero]
        have := mul_nonneg (Real.sqrt_nonneg 2) hf
        linarith
      · obtain ⟨m, hm⟩ := Nat.exists_eq_succ_of_ne_zero h0.ne'
        have h5 := s2 m (by omega)
        have h6 : Real.sqrt 2 * 2 ^ m ≤ frob A := by
          have := mul_le_mul_of_nonneg_right h5 (show (0 : ℝ) ≤ 2 ^ m by positivity)
          rw [mul_assoc, ← mul_pow] at this
          norm_num at this
          exact this
        have h7 := mul_le_mul_of_nonneg_left h6 (Real.sqrt_nonneg 2)
        rw [← mul_assoc, Real.mul_self_sqrt (by norm_num)] at h7
        rw [hm, Nat.succ_eq_add_one, pow_succ']
        linarith
    · exact div_le_div_of_nonneg_right (pow_le_pow_left₀ (by positivity) s1.le _) (by positivity)
  · have h5 : passTerm c (J - 1) = 0 := by linarith
    have h6 : vpow c (J - 1) = 0 := by
      unfold passTerm at h5
      rw [div_eq_zero_iff, or_iff_left (by positivity), Real.sqrt_eq_zero (by positivity)] at h5
      funext i
      have := (Finset.sum_eq_zero_iff_of_nonneg (fun i _ => by positivity)).1 h5 i (Finset.mem_univ i)
      simpa using this
    have h7 : (scaled A) ^ J = 0 := by
      have e := evC_vpow c (scaled A) hc (J - 1)
      rw [h6] at e
      have e2 : scaled A ^ (J - 1) = 0 := by rw [← e]; simp [evC]
      rw [show J = J - 1 + 1 by omega, pow_succ, e2, zero_mul]
    rw [taylor_of_nilpotent _ _ h7, scaled_exp, sub_self, frob_eq, matNorm_zero]
    positivity

/-- The last factor for `n = 2`. -/
example : Real.sqrt 2 ^ (25 * (1 + 1)) / ((25 * (1 + 1)) ! : ℝ) < 1 / 10 ^ 56 := by
  have : Real.sqrt 2 ^ (25 * (1 + 1)) = 2 ^ 25 := by
    rw [show 25 * (1 + 1) = 2 * 25 by norm_num, pow_mul, Real.sq_sqrt (by norm_num)]
  rw [this, div_lt_div_iff₀ (by positivity) (by positivity)]
  norm_num [Nat.factorial]

/-- **C61 (size 1).** For size 1 all versions access an element outside an array. -/
theorem C61_size_one (add : ℝ → ℝ → ℝ) (junk : Fin (0 + 1) → SqMat 𝕜 0) (A M : SqMat 𝕜 0) :
    chexp add junk A = none ∧ chexpk add junk A = none ∧ chexpD add junk A = none ∧ multChexp add junk A M = none ∧ chsexp add A = none := by
  refine ⟨rfl, rfl, rfl, rfl, rfl⟩

/-- **C61 (returned number, negation).** As soon as the matrix is scaled, the returned number of iterations is the size of
the matrix, whatever the number of iterations was. -/
theorem C61_count_lost (hk : 1 ≤ k) (add : ℝ → ℝ → ℝ) (junk : Fin (k + 1) → SqMat 𝕜 k) (A : SqMat 𝕜 k) (hA : Real.sqrt 2 ≤ frob A) :
    ∃ R, chexp add junk A = some (R, k + 1) := by
  obtain ⟨J, ret, h1, -⟩ := chexp_res hk add junk A
  rw [if_neg] at h1
  · exact ⟨_, h1⟩
  · intro h0
    have := (isScaling A).1
    rw [h0, pow_zero, mul_one] at this
    exact absurd hA (not_le.2 this)

/-- Without scaling it is the last value of the counter, `J - 1` or `25 n`. -/
theorem C61_count_partial (hk : 1 ≤ k) (add : ℝ → ℝ → ℝ) (junk : Fin (k + 1) → SqMat 𝕜 k) (A : SqMat 𝕜 k) (hA : frob A < Real.sqrt 2) :
    ∃ R ret, chexp add junk A = some (R, ret) ∧
      ((ret = 25 * (k + 1) ∧ R = squaredTaylor A 0 ret) ∨ (k + 1 ≤ ret ∧ ret < 25 * (k + 1) ∧ R = squaredTaylor A 0 (ret + 1))) := by
  obtain ⟨J, ret, h1, h2⟩ := chexp_res hk add junk A
  have h0 : scaleCount A = 0 := by
    by_contra h
    have := (isScaling A).2 0 (by omega)
    rw [pow_zero, mul_one] at this
    exact absurd hA (not_lt.2 this)
  have e := squaredTaylor_eq A J
  rw [← e] at h1
  rw [h0] at h1
  refine ⟨_, ret, h1, ?_⟩
  rcases h2 with ⟨h3, h4⟩ | ⟨h3, h4, h5, -⟩
  · exact Or.inl ⟨by omega, by rw [h4]⟩
  · exact Or.inr ⟨by omega, by omega, by rw [h5]⟩

/-! ### Derivative -/

/-- **C61 (derivative).** The matrix `K` of `chexpk` is the derivative of the function that `chexpk` computes: along every
curve `C` through `A` with derivative `Z` the derivative of the result is `Σ K_ij B^i Z B^j` with the scaled matrix `B`, up
to a term of order `|B|^(25n-1)/(25n-1)!` that occurs only if the iteration was not stopped before `25 n` terms. -/
theorem C61_derivative (hk : 1 ≤ k) (add : ℝ → ℝ → ℝ) (junk : Fin (k + 1) → SqMat 𝕜 k) (A : SqMat 𝕜 k) :
    ∃ R K nb J, chexpk add junk A = some (R, K) ∧ IsScaling A nb ∧ k + 1 ≤ J ∧ J ≤ 25 * (k + 1) ∧ R = squaredTaylor A nb J ∧
      ∀ Z : SqMat 𝕜 k, ∃ D, (∀ C : ℝ → SqMat 𝕜 k, C 0 = A → CurveDeriv C Z 0 → CurveDeriv (fun t => squaredTaylor (C t) nb J) D 0) ∧
        (J < 25 * (k + 1) → applyK A nb K Z = D) ∧
        frob (applyK A nb K Z - D) ≤ Real.exp (frob A) * frob Z * ((frob A * (1 / 2) ^ nb) ^ (J - 1) / ((J - 1) ! : ℝ)) := by
  obtain ⟨J, J', K, h1, h2, h3, h4, h5⟩ := chexpk_res hk add junk A
  refine ⟨_, K, scaleCount A, J, h1, isScaling A, h2, h3, (squaredTaylor_eq A J).symm, fun Z => ?_⟩
  refine ⟨(1 / 2 : 𝕜) ^ scaleCount A • dpow (taylor (scaled A) J) (dtaylor (scaled A) Z J) (2 ^ scaleCount A), ?_, ?_, ?_⟩
  · intro C hC hZ
    have h6 : MDer (fun t => ((1 / 2 : 𝕜) ^ scaleCount A) • C t) (((1 / 2 : 𝕜) ^ scaleCount A) • Z) 0 := MDer.smul _ hZ
    have h7 := (h6.taylor J).pow (2 ^ scaleCount A)
    rw [hC, ← scaled_eq, dtaylor_smul, dpow_smul] at h7
    exact h7
  · intro hJ
    rw [applyK_eq, h5, show J' = J by omega]
  · rw [applyK_eq, h5]
    have hZ0 := matNorm_nonneg Z
    have hA0 := matNorm_nonneg A
    rcases h4 with rfl | ⟨rfl, -⟩
    · rw [sub_self, frob_eq, matNorm_zero, frob_eq, frob_eq]
      positivity
    · obtain ⟨m, rfl⟩ := Nat.exists_eq_succ_of_ne_zero (show J ≠ 0 by omega)
      rw [Nat.succ_eq_add_one]
      have e : dtaylor (scaled A) Z (m + 1 + 1) = dtaylor (scaled A) Z (m + 1) + (1 / ((m + 1) ! : 𝕜)) • dpow (scaled A) Z (m + 1) := by
        unfold dtaylor
        rw [Finset.sum_range_succ _ (m + 1)]
      rw [e, dpow_add, smul_add, add_sub_cancel_left, frob_eq, matNorm_smul, norm_pow, frob_eq, frob_eq]
      have h6 := dpow_taylor_le (scaled A) ((1 / ((m + 1) ! : 𝕜)) • dpow (scaled A) Z (m + 1)) (m + 1) (2 ^ scaleCount A)
      have h7 := dtaylor_step_le (scaled A) Z m
      have e2 : ((2 ^ scaleCount A : ℕ) : ℝ) * matNorm (scaled A) = matNorm A := by
        rw [scaled_norm]
        push_cast
        rw [mul_left_comm, ← mul_pow]; norm_num
      have e3 : ‖(1 / 2 : 𝕜)‖ ^ scaleCount A * ((2 ^ scaleCount A : ℕ) : ℝ) = 1 := by
        push_cast
        rw [← mul_pow]
        simp
      rw [e2] at h6
      refine (mul_le_mul_of_nonneg_left h6 (by positivity)).trans ?_
      rw [← mul_assoc, e3, one_mul, show m + 1 - 1 = m by omega, mul_assoc]
      refine mul_le_mul_of_nonneg_left ?_ (Real.exp_pos _).le
      rw [mul_comm, ← scaled_norm]
      exact h7

/-- **C61 (the functions with derivative).** `chexp` with derivatives returns the value of `chexpk` and in `domat[a][b]`
the derivative in the direction of the element `(b, a)`. -/
theorem C61_chexp_derivatives (hk : 1 ≤ k) (add : ℝ → ℝ → ℝ) (junk : Fin (k + 1) → SqMat 𝕜 k) (A R K : SqMat 𝕜 k) (nb : ℕ)
    (h : chexpk add junk A = some (R, K)) (hnb : IsScaling A nb) :
    ∃ D, chexpD add junk A = some (R, D) ∧ ∀ a b, D a b = applyK A nb K (Matrix.single b a 1) := by
  obtain rfl := isScaling_unique A hnb (isScaling A)
  obtain ⟨pl, h1, h2⟩ := chPowers_eq (by omega : 1 < k + 1) junk (scaled A)
  refine ⟨_, by unfold chexpD; rw [h, h1]; rfl, fun a b => ?_⟩
  rw [applyK_eq]
  have t0 : (forUp (k + 1) 0 (fun p (m : SqMat 𝕜 k) => setE m p a (m p a + kComb K pl 0 p b)) 0 : SqMat 𝕜 k) =
      Matrix.of fun p q => (scaled A ^ (0 : ℕ)) a q * kComb K pl 0 p b := by
    have key := forUp_inv (n := k + 1) (lo := 0) (f := fun p (m : SqMat 𝕜 k) => setE m p a (m p a + kComb K pl 0 p b)) (s := 0)
      (fun l m => ∀ p q : Fin (k + 1), m p q = if p.val < l then (scaled A ^ (0 : ℕ)) a q * kComb K pl 0 p b else 0) (by omega) ?_ ?_
    · ext p q
      rw [key p q, if_pos p.isLt]; rfl
    · intro p q
      rw [if_neg (by omega)]; rfl
    · intro l hl _ M hM p q
      rw [setE_sq_apply]
      by_cases hp : p = ⟨l, hl⟩
      · subst hp
        rw [if_pos (Nat.lt_succ_self l)]
        by_cases hq : q = a
        · subst hq
          rw [if_pos ⟨rfl, rfl⟩, hM, if_neg (lt_irrefl l), pow_zero, Matrix.one_apply_eq]; ring
        · rw [if_neg (fun h => hq h.2), hM, if_neg (lt_irrefl l), pow_zero, Matrix.one_apply_ne (fun h => hq h.symm), zero_mul]
      · rw [if_neg (fun h => hp h.1), hM]
        have hne : p.val ≠ l := fun h => hp (Fin.ext h)
        have hc : (p.val < l) ↔ (p.val < l + 1) := by omega
        simp only [hc]
  dsimp only
  rw [t0]
  have key := forUp_inv (n := k + 1) (lo := 1) (f := fun i (m : SqMat 𝕜 k) => m + Matrix.of fun p q => pl i a q * kComb K pl i p b)
    (s := Matrix.of fun p q => (scaled A ^ (0 : ℕ)) a q * kComb K pl 0 p b)
    (fun l m => ∀ p q : Fin (k + 1), m p q = ∑ i : Fin (k + 1), if i.val < l then (scaled A ^ i.val) a q * kComb K pl i p b else 0) (by omega) ?_ ?_
  · ext p q
    rw [key p q, evK_single _ _ (symU_comm K)]
    refine Finset.sum_congr rfl fun i _ => ?_
    rw [if_pos i.isLt, kComb_eq K pl _ h2, Matrix.sum_apply]
    rfl
  · intro p q
    rw [Finset.sum_eq_single 0]
    · rw [if_pos (by simp)]; rfl
    · intro j _ hj
      rw [if_neg (by have := one_le_val hj; omega)]
    · simp
  · intro l hl hl1 M hM p q
    rw [sum_lt_succ _ l hl, Matrix.add_apply, hM, h2 ⟨l, hl⟩ hl1, add_comm]
    rfl

/-- **C61 (`mult_chexp`).** `omat = E† M E` and `tr(domat Z) = tr(E† M D(Z))` for every `Z`, where `E` and the
derivative `D` are those of `chexpk`. -/
theorem C61_mult_chexp (hk : 1 ≤ k) (add : ℝ → ℝ → ℝ) (junk : Fin (k + 1) → SqMat 𝕜 k) (A R K M : SqMat 𝕜 k) (nb : ℕ)
    (h : chexpk add junk A = some (R, K)) (hnb : IsScaling A nb) :
    ∃ dom, multChexp add junk A M = some (R.conjTranspose * M * R, dom) ∧
      ∀ Z, (dom * Z).trace = (R.conjTranspose * M * applyK A nb K Z).trace := by
  obtain rfl := isScaling_unique A hnb (isScaling A)
  obtain ⟨pl, h1, h2⟩ := chPowers_eq (by omega : 1 < k + 1) junk (scaled A)
  refine ⟨_, by unfold multChexp; rw [h, h1]; rfl, fun Z => ?_⟩
  rw [kTrace_eq K pl _ h2, evK_trace _ _ _ _ (symU_comm K), applyK_eq]

/-- **C61 (`mult_chexpk_fast`).** The same from stored matrices `R` and `K`, in particular from those of `chexpk`; the
contents of the work array do not matter. -/
theorem C61_mult_chexpk_fast (hk : 1 ≤ k) (junk' : Fin (k + 1) → SqMat 𝕜 k) (A R K M : SqMat 𝕜 k) (nb : ℕ) (hnb : IsScaling A nb) :
    ∃ dom, multChexpkFast junk' A R K M = some (R.conjTranspose * M * R, dom) ∧
      ∀ Z, (dom * Z).trace = (R.conjTranspose * M * applyK A nb K Z).trace := by
  obtain rfl := isScaling_unique A hnb (isScaling A)
  obtain ⟨pl, h1, h2⟩ := chPowers_eq (by omega : 1 < k + 1) junk' (scaled A)
  refine ⟨_, by unfold multChexpkFast; rw [h1]; rfl, fun Z => ?_⟩
  rw [kTrace_eq K pl _ h2, evK_trace _ _ _ _ (symU_comm K), applyK_eq]

/-! ### `chsexp` -/

/-- **C61 (`chsexp`, negation).** For the matrix `diag(1, 0)` the result of `chsexp` differs from `exp` by at least 1,
for every rounding of the stopping test: the coefficients of the characteristic polynomial have the wrong sign. -/
theorem C61_chsexp_wrong (add : ℝ → ℝ → ℝ) :
    ∃ R, chsexp add (!![1, 0; 0, 0] : SqMat ℝ 1) = some R ∧ 1 ≤ |R 0 0 - NormedSpace.exp (!![1, 0; 0, 0] : SqMat ℝ 1) 0 0| := by
  obtain ⟨J, hJ, h1⟩ := chsexp_res (le_refl 1) add (!![1, 0; 0, 0] : SqMat ℝ 1)
  refine ⟨_, h1, ?_⟩
  have hlev : leverrier (!![1, 0; 0, 0] : SqMat ℝ 1) = ![0, 1, 1] := by
    have hd : (List.finRange (1 + 2)).drop 2 = [(2 : Fin 3)] := rfl
    unfold leverrier forUp
    rw [hd]
    simp only [List.foldl_cons, List.foldl_nil]
    funext i
    fin_cases i <;> simp [Function.update, Matrix.trace, Matrix.diag, Fin.sum_univ_two, Matrix.mul_apply, Matrix.scalar_apply, Fin.ext_iff]
  have hv : ∀ m, vpow (![0, 1, 1] : Fin (1 + 2) → ℝ) (m + 1) = ![0, (-1) ^ m] := by
    intro m
    induction m with
    | zero =>
      funext i
      fin_cases i <;> simp [vpow, mulX, prv, Fin.ext_iff, Pi.single_apply]
    | succ m ih =>
      rw [vpow_succ, ih]
      funext i
      fin_cases i <;> simp [mulX, prv, Fin.ext_iff, pow_succ]
  have he : NormedSpace.exp (!![1, 0; 0, 0] : SqMat ℝ 1) 0 0 = Real.exp 1 := by
    have : (!![1, 0; 0, 0] : SqMat ℝ 1) = Matrix.diagonal ![1, 0] := by
      ext i j; fin_cases i <;> fin_cases j <;> rfl
    rw [this, Matrix.exp_diagonal, Matrix.diagonal_apply_eq, Pi.coe_exp, Real.exp_eq_exp_ℝ]
    rfl
  have hR : evC (!![1, 0; 0, 0] : SqMat ℝ 1) (coefT (leverrier (!![1, 0; 0, 0] : SqMat ℝ 1)) J) 0 0 ≤ Real.exp 1 - 1 := by
    have e1 : evC (!![1, 0; 0, 0] : SqMat ℝ 1) (coefT (leverrier (!![1, 0; 0, 0] : SqMat ℝ 1)) J) 0 0 =
        ∑ m ∈ Finset.range J, 1 / (m ! : ℝ) * (vpow (![0, 1, 1] : Fin (1 + 2) → ℝ) m 0 + vpow (![0, 1, 1] : Fin (1 + 2) → ℝ) m 1) := by
      rw [hlev]
      unfold evC coefT
      rw [Matrix.sum_apply, Fin.sum_univ_two]
      simp [Finset.sum_add_distrib, mul_add]
    have e2 : ∀ m, vpow (![0, 1, 1] : Fin (1 + 2) → ℝ) m 0 + vpow (![0, 1, 1] : Fin (1 + 2) → ℝ) m 1 ≤ if m = 2 then -1 else 1 := by
      intro m
      rcases m with - | m
      · simp [vpow, Pi.single_apply]
      · rw [hv]
        simp only [Matrix.cons_val_zero, Matrix.cons_val_one, zero_add]
        split_ifs with h
        · rw [show m = 1 by omega]; norm_num
        · rcases neg_one_pow_eq_or ℝ m with h | h <;> rw [h] <;> norm_num
    rw [e1]
    have e3 : ∑ m ∈ Finset.range J, 1 / (m ! : ℝ) * (if m = 2 then (-1 : ℝ) else 1) = (∑ m ∈ Finset.range J, (1 : ℝ) ^ m / (m ! : ℝ)) - 1 := by
      rw [← Finset.add_sum_erase _ _ (Finset.mem_range.2 (show 2 < J by omega)),
        ← Finset.add_sum_erase _ (fun m => (1 : ℝ) ^ m / (m ! : ℝ)) (Finset.mem_range.2 (show 2 < J by omega))]
      have e4 : ∑ m ∈ (Finset.range J).erase 2, 1 / (m ! : ℝ) * (if m = 2 then (-1 : ℝ) else 1) = ∑ m ∈ (Finset.range J).erase 2, (1 : ℝ) ^ m / (m ! : ℝ) := by
        refine Finset.sum_congr rfl fun m hm => ?_
        rw [if_neg (Finset.ne_of_mem_erase hm), one_pow, mul_one]
      rw [e4]
      norm_num
      ring
    calc _ ≤ ∑ m ∈ Finset.range J, 1 / (m ! : ℝ) * (if m = 2 then (-1 : ℝ) else 1) :=
          Finset.sum_le_sum fun m _ => mul_le_mul_of_nonneg_left (e2 m) (by positivity)
      _ = _ := e3
      _ ≤ _ := sub_le_sub_right (exp_sum_le 1 (by norm_num) J) 1
  rw [he, abs_sub_comm]
  refine le_trans ?_ (le_abs_self _)
  linarith

/-- `chsexp` is exact for nilpotent matrices, whose characteristic polynomial has no coefficients but the first. For all
other matrices nothing is claimed. -/
theorem C61_chsexp_partial (hk : 1 ≤ k) (add : ℝ → ℝ → ℝ) (A : SqMat 𝕜 k) (hA : IsNilpotent A) :
    chsexp add A = some (NormedSpace.exp A) := by
  obtain ⟨J, hJ, h1⟩ := chsexp_res hk add A
  have hc := leverrier_nilpotent A hA
  have hn : A ^ J = 0 := by
    have hp : A.charpoly = Polynomial.X ^ (k + 1) := by
      have := (Matrix.isNilpotent_charpoly_sub_pow_of_isNilpotent hA).eq_zero
      rw [sub_eq_zero, Fintype.card_fin] at this
      exact this
    have := Matrix.aeval_self_charpoly A
    rw [hp, map_pow, Polynomial.aeval_X] at this
    rw [show J = (k + 1) + (J - (k + 1)) by omega, pow_add, this, zero_mul]
  rw [h1, evC_coefT _ _ hc, taylor_of_nilpotent _ _ hn]

/-! ### Examples -/

/-- The theorems apply to a matrix of size 2 that has to be scaled. -/
example : Real.sqrt 2 ≤ frob (!![0, 2; -2, 0] : SqMat ℝ 1) := by
  show Real.sqrt 2 ≤ Real.sqrt (∑ i : Fin 2, ∑ j : Fin 2, ‖(!![0, 2; -2, 0] : Matrix (Fin 2) (Fin 2) ℝ) i j‖ ^ 2)
  apply Real.sqrt_le_sqrt
  norm_num [Fin.sum_univ_two]

example : IsNilpotent (!![0, 1; 0, 0] : SqMat ℝ 1) := ⟨2, by ext i j; fin_cases i <;> fin_cases j <;> simp [pow_two, Matrix.mul_apply, Fin.sum_univ_two]⟩

end Hila
