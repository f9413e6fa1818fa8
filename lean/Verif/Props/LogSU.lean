import Verif.Model.LogSU
import Verif.Props.SUN
import Mathlib.Analysis.Normed.Algebra.MatrixExponential
import Mathlib.Analysis.Matrix.Spectrum
import Mathlib.Analysis.CStarAlgebra.Matrix
import Mathlib.Analysis.SpecialFunctions.Trigonometric.Bounds
import Mathlib.Analysis.SpecialFunctions.Exponential
import Mathlib.RingTheory.RootsOfUnity.Complex

/-!
# C64: the logarithm of SU(N)
-/

namespace Hila

open Matrix
open scoped Matrix.Norms.L2Operator

variable {N : ℕ}

/-! ### The diagonal form -/

/-- Antihermitian matrix with the given angles in the given basis. -/
noncomputable def antiOf (V : Mat N) (w : Fin N → ℝ) : Mat N := V * diagonal (fun j => Complex.I * (w j : ℂ)) * Vᴴ

/-- Its exponential. -/
noncomputable def expOf (V : Mat N) (w : Fin N → ℝ) : Mat N := V * diagonal (fun j => Complex.exp (Complex.I * (w j : ℂ))) * Vᴴ

theorem exp_antiOf {V : Mat N} (hV : V ∈ unitaryGroup (Fin N) ℂ) (w : Fin N → ℝ) : NormedSpace.exp (antiOf V w) = expOf V w := by
  have h1 : V * Vᴴ = 1 := mem_unitaryGroup_iff.1 hV
  have hi : V⁻¹ = Vᴴ := inv_eq_right_inv h1
  have hu : IsUnit V := by rw [isUnit_iff_isUnit_det]; exact isUnit_det_of_right_inverse h1
  unfold antiOf expOf
  rw [← hi, exp_conj _ _ hu, exp_diagonal]
  congr 3
  funext j
  rw [Pi.coe_exp, Complex.exp_eq_exp_ℂ]

theorem expOf_mul {V : Mat N} (hV : V ∈ unitaryGroup (Fin N) ℂ) (w w' : Fin N → ℝ) : expOf V w * expOf V w' = expOf V fun j => w j + w' j := by
  have h1 : Vᴴ * V = 1 := mem_unitaryGroup_iff'.1 hV
  unfold expOf
  rw [show V * diagonal (fun j => Complex.exp (Complex.I * (w j : ℂ))) * Vᴴ * (V * diagonal (fun j => Complex.exp (Complex.I * (w' j : ℂ))) * Vᴴ) =
    V * diagonal (fun j => Complex.exp (Complex.I * (w j : ℂ))) * (Vᴴ * V) * diagonal (fun j => Complex.exp (Complex.I * (w' j : ℂ))) * Vᴴ by
      simp only [Matrix.mul_assoc], h1, Matrix.mul_one, Matrix.mul_assoc V, diagonal_mul_diagonal]
  congr 3
  funext j
  rw [← Complex.exp_add]
  congr 1
  push_cast
  ring

theorem antiOf_sub (V : Mat N) (w w' : Fin N → ℝ) : antiOf V w - antiOf V w' = antiOf V fun j => w j - w' j := by
  unfold antiOf
  rw [← Matrix.sub_mul, ← Matrix.mul_sub, diagonal_sub]
  congr 3
  funext j
  push_cast
  ring

theorem antiOf_neg (V : Mat N) (w : Fin N → ℝ) : -antiOf V w = antiOf V fun j => -w j := by
  unfold antiOf
  rw [← Matrix.neg_mul, ← Matrix.mul_neg, diagonal_neg]
  congr 3
  funext j
  simp

theorem trace_conj_unitary {V : Mat N} (hV : V ∈ unitaryGroup (Fin N) ℂ) (d : Fin N → ℂ) : (V * diagonal d * Vᴴ).trace = ∑ j, d j := by
  have h1 : Vᴴ * V = 1 := mem_unitaryGroup_iff'.1 hV
  rw [Matrix.trace_mul_comm, ← Matrix.mul_assoc, h1, Matrix.one_mul, trace_diagonal]

theorem algPart_expOf {V : Mat N} (hV : V ∈ unitaryGroup (Fin N) ℂ) (w : Fin N → ℝ) :
    algPart (expOf V w) = antiOf V fun j => Real.sin (w j) - (∑ i, Real.sin (w i)) / N := by
  have h2 : V * Vᴴ = 1 := mem_unitaryGroup_iff.1 hV
  have e : (1 / 2 : ℂ) • (expOf V w - (expOf V w)ᴴ) = V * diagonal (fun j => Complex.I * (Real.sin (w j) : ℂ)) * Vᴴ := by
    unfold expOf
    rw [conjTranspose_mul, conjTranspose_mul, conjTranspose_conjTranspose, diagonal_conjTranspose, ← Matrix.mul_assoc, ← Matrix.sub_mul,
      ← Matrix.mul_sub, diagonal_sub, ← Matrix.smul_mul, ← Matrix.mul_smul, ← diagonal_smul]
    congr 3
    funext j
    simp only [Pi.smul_apply, Pi.star_apply, smul_eq_mul, Complex.star_def]
    rw [← Complex.exp_conj, map_mul, Complex.conj_I, Complex.conj_ofReal, mul_comm Complex.I, show -Complex.I * (w j : ℂ) = -(w j : ℂ) * Complex.I by ring,
      Complex.ofReal_sin, Complex.sin]
    linear_combination (-(1 / 2 : ℂ) * (Complex.exp (-(w j : ℂ) * Complex.I) - Complex.exp ((w j : ℂ) * Complex.I))) * Complex.I_sq
  unfold algPart
  rw [e, trace_conj_unitary hV]
  unfold antiOf
  have e1 : (1 : Mat N) = V * diagonal (fun _ => 1) * Vᴴ := by
    rw [show diagonal (fun _ : Fin N => (1 : ℂ)) = 1 from diagonal_one, Matrix.mul_one, h2]
  rw [e1, ← Matrix.smul_mul, ← Matrix.mul_smul, ← Matrix.sub_mul, ← Matrix.mul_sub, ← diagonal_smul, diagonal_sub]
  congr 3
  funext j
  simp only [Pi.smul_apply, smul_eq_mul, mul_one]
  rw [← Finset.mul_sum]
  push_cast
  ring

theorem norm_conj_unitary {V : Mat N} (hV : V ∈ unitaryGroup (Fin N) ℂ) (A : Mat N) : ‖V * A * Vᴴ‖ = ‖A‖ := by
  have h1 := CStarRing.norm_coe_unitary_mul (⟨V, hV⟩ : unitary (Mat N)) A
  have h2 := CStarRing.norm_mul_coe_unitary (V * A) (star (⟨V, hV⟩ : unitary (Mat N)))
  rw [← h1]
  exact h2

theorem norm_antiOf {V : Mat N} (hV : V ∈ unitaryGroup (Fin N) ℂ) (w : Fin N → ℝ) : ‖antiOf V w‖ = ‖w‖ := by
  unfold antiOf
  rw [norm_conj_unitary hV, l2_opNorm_diagonal]
  apply le_antisymm
  · refine (pi_norm_le_iff_of_nonneg (norm_nonneg _)).2 fun j => ?_
    rw [norm_mul, Complex.norm_I, one_mul, Complex.norm_real]
    exact norm_le_pi_norm w j
  · refine (pi_norm_le_iff_of_nonneg (norm_nonneg _)).2 fun j => ?_
    have := norm_le_pi_norm (fun j => Complex.I * (w j : ℂ)) j
    rwa [norm_mul, Complex.norm_I, one_mul, Complex.norm_real] at this

/-- Every element of the algebra has a diagonal form with angles that add up to 0. -/
theorem expand_diag (hN : 0 < N) (x : Alg N) : ∃ V ∈ unitaryGroup (Fin N) ℂ, ∃ w : Fin N → ℝ, expand x = antiOf V w ∧ ∑ j, w j = 0 := by
  have hx : (algMat x)ᴴ = -algMat x := algMat_conj x
  have hH : ((-Complex.I) • algMat x).IsHermitian := by
    unfold Matrix.IsHermitian
    rw [conjTranspose_smul, hx]
    simp
  have hs := hH.spectral_theorem
  refine ⟨hH.eigenvectorUnitary, hH.eigenvectorUnitary.2, hH.eigenvalues, ?_, ?_⟩
  · rw [expand_eq hN]
    have h1 : algMat x = Complex.I • ((-Complex.I) • algMat x) := by
      rw [smul_smul]; simp
    refine h1.trans ?_
    conv_lhs => rw [hs]
    unfold antiOf
    rw [Unitary.conjStarAlgAut_apply, ← Matrix.smul_mul, ← Matrix.mul_smul, ← diagonal_smul]
    rfl
  · have h1 := hH.trace_eq_sum_eigenvalues
    rw [trace_smul, algMat_trace hN, smul_zero] at h1
    have h2 := congrArg Complex.re h1
    simp only [Complex.zero_re, Complex.re_sum] at h2
    rw [h2]
    rfl

/-! ### The iteration of the angles -/

/-- What one pass does to the angles of the error. -/
noncomputable def logStep (e : Fin N → ℝ) : Fin N → ℝ := fun j => e j - (Real.sin (e j) - (∑ i, Real.sin (e i)) / N)

theorem logStep_sum (hN : 0 < N) (e : Fin N → ℝ) : ∑ j, logStep e j = ∑ j, e j := by
  have hn : (N : ℝ) ≠ 0 := Nat.cast_ne_zero.2 (by omega)
  unfold logStep
  rw [Finset.sum_sub_distrib, Finset.sum_sub_distrib, Finset.sum_const, Finset.card_univ, Fintype.card_fin, nsmul_eq_mul, mul_div_cancel₀ _ hn]
  ring

theorem abs_sub_sin (x : ℝ) : |x - Real.sin x| ≤ |x| ^ 3 / 6 := by
  rcases le_total 0 x with h | h
  · rw [abs_of_nonneg h, abs_of_nonneg (sub_nonneg.2 (Real.sin_le h))]
    linarith [Real.sin_ge_sub_cube h]
  · have h' : 0 ≤ -x := by linarith
    have h1 := Real.sin_ge_sub_cube h'
    have h2 := Real.sin_le h'
    rw [Real.sin_neg] at h1 h2
    rw [abs_of_nonpos h, abs_of_nonpos (by linarith)]
    linarith

theorem logStep_bound (hN : 0 < N) (e : Fin N → ℝ) (h0 : ∑ j, e j = 0) {r : ℝ} (hr : ∀ j, |e j| ≤ r) (j : Fin N) : |logStep e j| ≤ r ^ 3 / 3 := by
  have hn : (0 : ℝ) < N := Nat.cast_pos.2 hN
  have hb : ∀ i, |e i - Real.sin (e i)| ≤ r ^ 3 / 6 := fun i => (abs_sub_sin _).trans (by
    have := pow_le_pow_left₀ (abs_nonneg (e i)) (hr i) 3
    linarith)
  have e1 : logStep e j = (e j - Real.sin (e j)) - (∑ i, (e i - Real.sin (e i))) / N := by
    unfold logStep
    rw [Finset.sum_sub_distrib, h0]
    ring
  have e2 : |(∑ i, (e i - Real.sin (e i))) / N| ≤ r ^ 3 / 6 := by
    rw [abs_div, abs_of_pos hn, div_le_iff₀ hn]
    refine (Finset.abs_sum_le_sum_abs _ _).trans ((Finset.sum_le_sum fun i _ => hb i).trans ?_)
    rw [Finset.sum_const, Finset.card_univ, Fintype.card_fin, nsmul_eq_mul]
    linarith
  rw [e1]
  refine (abs_sub _ _).trans ?_
  linarith [hb j]

theorem logStep_iter_sum (hN : 0 < N) (e : Fin N → ℝ) (k : ℕ) : ∑ j, (logStep^[k] e) j = ∑ j, e j := by
  induction k with
  | zero => rfl
  | succ k ih => rw [Function.iterate_succ_apply', logStep_sum hN, ih]

theorem logStep_iter_bound (hN : 0 < N) (e : Fin N → ℝ) (h0 : ∑ j, e j = 0) {q : ℝ} (hr : ∀ j, |e j| ≤ √3 * q) (k : ℕ) (j : Fin N) :
    |(logStep^[k] e) j| ≤ √3 * q ^ (3 ^ k) := by
  induction k generalizing j with
  | zero => simpa using hr j
  | succ k ih =>
    rw [Function.iterate_succ_apply']
    refine (logStep_bound hN _ (by rw [logStep_iter_sum hN, h0]) ih j).trans (le_of_eq ?_)
    have h3 : √3 ^ 3 = 3 * √3 := by rw [pow_succ, Real.sq_sqrt (by norm_num)]
    rw [mul_pow, h3, pow_succ 3 k, pow_mul q]
    ring

/-! ### The loop -/

theorem project_sup (hN : 0 < N) {V : Mat N} (hV : V ∈ unitaryGroup (Fin N) ℂ) (c : Alg N) (w : Fin N → ℝ) (h : expand c = antiOf V w) (j : Fin N) :
    |w j| ≤ ∑ i, |c i| := by
  have h1 : (expandRun c) = some (expand c) := by
    rw [expand_eq hN]
    unfold expandRun
    rw [expandScaledRun_eq hN]
    simp
  have h2 : ((expand c)ᴴ * expand c).trace.re = ∑ j, w j ^ 2 := by
    have hv : Vᴴ * V = 1 := mem_unitaryGroup_iff'.1 hV
    rw [h]
    unfold antiOf
    rw [conjTranspose_mul, conjTranspose_mul, conjTranspose_conjTranspose, diagonal_conjTranspose,
      show V * (diagonal (star fun j => Complex.I * (w j : ℂ)) * Vᴴ) * (V * diagonal (fun j => Complex.I * (w j : ℂ)) * Vᴴ) =
        V * diagonal (star fun j => Complex.I * (w j : ℂ)) * (Vᴴ * V) * diagonal (fun j => Complex.I * (w j : ℂ)) * Vᴴ by simp only [Matrix.mul_assoc],
      hv, Matrix.mul_one, Matrix.mul_assoc V, diagonal_mul_diagonal, trace_conj_unitary hV, Complex.re_sum]
    refine Finset.sum_congr rfl fun i _ => ?_
    simp [pow_two]
  have h3 : ∑ i, c i ^ 2 = 2 * ∑ j, w j ^ 2 := by
    have h0 := (C50_dot hN c c h1 h1).2
    rw [h2] at h0
    exact h0
  have h4 : w j ^ 2 ≤ ∑ j, w j ^ 2 := Finset.single_le_sum (f := fun j => w j ^ 2) (fun i _ => sq_nonneg _) (Finset.mem_univ j)
  have h5 : ∑ i, c i ^ 2 ≤ (∑ i, |c i|) ^ 2 := by
    have := Finset.sum_sq_le_sq_sum_of_nonneg (s := Finset.univ) (f := fun i => |c i|) fun i _ => abs_nonneg _
    simpa [sq_abs] using this
  have h6 : 0 ≤ ∑ j, w j ^ 2 := Finset.sum_nonneg fun i _ => sq_nonneg _
  rw [← abs_of_nonneg (Finset.sum_nonneg fun i _ => abs_nonneg (c i) : 0 ≤ ∑ i, |c i|)]
  exact sq_le_sq.1 (by linarith)

theorem expand_zero' (hN : 0 < N) (V : Mat N) : expand (0 : Alg N) = antiOf V fun _ => 0 := by
  rw [expand_eq hN]
  unfold algMat antiOf
  simp

theorem expand_neg' (hN : 0 < N) (c : Alg N) : expand (-c) = -expand c := by
  rw [expand_eq hN, expand_eq hN]
  unfold algMat
  simp

theorem expand_sub' (hN : 0 < N) (c d : Alg N) : expand (fun i => c i - d i) = expand c - expand d := by
  rw [expand_eq hN, expand_eq hN, expand_eq hN]
  unfold algMat
  simp only [Complex.ofReal_sub, sub_smul, Finset.sum_sub_distrib]

/-- The result belongs to some number of passes, and if they are fewer than allowed the last change was small. -/
theorem logLoop_run (hN : 0 < N) {V : Mat N} (hV : V ∈ unitaryGroup (Fin N) ℂ) (w : Fin N → ℝ) (fprec : ℝ) (m : ℕ) (e : Fin N → ℝ) (res : Alg N)
    (hres : expand res = antiOf V fun j => e j - w j) :
    ∃ k, k ≤ m ∧ expand (logLoop fprec NormedSpace.exp (expOf V w) m (expOf V e) res) = antiOf V (fun j => (logStep^[k] e) j - w j) ∧
      (k = m ∨ ∃ k', k = k' + 1 ∧ ∀ j, |(logStep^[k] e) j - (logStep^[k'] e) j| ≤
        fprec * (∑ i, |logLoop fprec NormedSpace.exp (expOf V w) m (expOf V e) res i| + 1)) := by
  induction m generalizing e res with
  | zero => exact ⟨0, le_rfl, hres, Or.inl rfl⟩
  | succ m ih =>
    have hp : expand (project (expOf V e)) = antiOf V fun j => Real.sin (e j) - (∑ i, Real.sin (e i)) / N := by
      rw [expand_project hN, algPart_expOf hV]
    obtain ⟨res', hr⟩ : ∃ r : Alg N, r = fun i => res i - project (expOf V e) i := ⟨_, rfl⟩
    have hres' : expand res' = antiOf V fun j => logStep e j - w j := by
      rw [hr, expand_sub' hN, hres, hp, antiOf_sub]
      congr 1
      funext j
      unfold logStep
      ring
    by_cases hs : (projectNorm (expOf V e)).2 < fprec * (∑ i, |res' i| + 1.0)
    · have hl : logLoop fprec NormedSpace.exp (expOf V w) (m + 1) (expOf V e) res = res' := by
        subst hr
        exact if_pos hs
      rw [hl]
      refine ⟨1, by omega, hres', Or.inr ⟨0, rfl, fun j => ?_⟩⟩
      have h1 := project_sup hN hV _ _ hp j
      have h2 : (logStep^[1] e) j - (logStep^[0] e) j = -(Real.sin (e j) - (∑ i, Real.sin (e i)) / N) := by
        simp only [Function.iterate_one, Function.iterate_zero, id_eq]
        unfold logStep
        ring
      rw [h2, abs_neg]
      refine h1.trans ?_
      have h3 : (1.0 : ℝ) = 1 := by norm_num
      rw [h3] at hs
      exact hs.le
    · have hl : logLoop fprec NormedSpace.exp (expOf V w) (m + 1) (expOf V e) res =
          logLoop fprec NormedSpace.exp (expOf V w) m (expOf V (logStep e)) res' := by
        have e1 : logLoop fprec NormedSpace.exp (expOf V w) (m + 1) (expOf V e) res =
            logLoop fprec NormedSpace.exp (expOf V w) m (expOf V w * NormedSpace.exp (expand res')) res' := by
          subst hr
          exact if_neg hs
        rw [e1, hres', exp_antiOf hV, expOf_mul hV]
        congr 2
        funext j
        ring
      obtain ⟨k, hk, h1, h2⟩ := ih (logStep e) res' hres'
      rw [hl]
      refine ⟨k + 1, by omega, h1, ?_⟩
      rcases h2 with rfl | ⟨k', rfl, h3⟩
      · exact Or.inl rfl
      · exact Or.inr ⟨k' + 1, rfl, h3⟩

theorem logSU_run (hN : 0 < N) {V : Mat N} (hV : V ∈ unitaryGroup (Fin N) ℂ) (w : Fin N → ℝ) (eps : ℝ) :
    ∃ k, k ≤ 5 * N ∧ expand (logSU eps NormedSpace.exp (expOf V w)) = antiOf V (fun j => w j - (logStep^[k] w) j) ∧
      (k = 5 * N ∨ ∃ k', k = k' + 1 ∧ ∀ j, |(logStep^[k] w) j - (logStep^[k'] w) j| ≤
        eps * 10 * ((N * N - 1 : ℕ) : ℝ) * (∑ i, |logSU eps NormedSpace.exp (expOf V w) i| + 1)) := by
  obtain ⟨k, hk, h1, h2⟩ := logLoop_run hN hV w (eps * 10.0 * ((N * N - 1 : ℕ) : ℝ)) (5 * N) w 0 (by rw [expand_zero' hN V]; simp)
  refine ⟨k, hk, ?_, ?_⟩
  · unfold logSU
    rw [expand_neg' hN, h1, antiOf_neg]
    congr 1
    funext j
    ring
  · refine h2.imp_right fun ⟨k', h3, h4⟩ => ⟨k', h3, fun j => (h4 j).trans (le_of_eq ?_)⟩
    unfold logSU
    simp only [Pi.neg_apply, abs_neg]
    norm_num

theorem expOf_sub_norm {V : Mat N} (hV : V ∈ unitaryGroup (Fin N) ℂ) (w w' : Fin N → ℝ) :
    ‖expOf V w - expOf V w'‖ = ‖fun j => Complex.exp (Complex.I * (w j : ℂ)) - Complex.exp (Complex.I * (w' j : ℂ))‖ := by
  unfold expOf
  rw [← Matrix.sub_mul, ← Matrix.mul_sub, norm_conj_unitary hV, diagonal_sub, l2_opNorm_diagonal]

/-- C64, partial: missing are matrices with larger angles (where the statement is false, see below) and the error of `chexp`. `log`
inverts the exponential near the unit matrix: if no angle of the matrix is `√3` or more, then the error of the logarithm is
at most the larger of two numbers. The first one is what is left if all passes are used; it is smaller than any rounding error. The second
one is proportional to the tolerance of the stopping rule. The same bound holds for the exponential of the result. -/
theorem C64_log_exp_partial (hN : 0 < N) (x : Alg N) (θ eps : ℝ) (hx : ‖expand x‖ ≤ θ) (hθ : θ < √3) :
    let y := logSU eps NormedSpace.exp (NormedSpace.exp (expand x))
    let δ := max (√3 * (θ / √3) ^ (3 ^ (5 * N))) (eps * 10 * ((N * N - 1 : ℕ) : ℝ) * (∑ i, |y i| + 1) * (θ ^ 2 / (3 - θ ^ 2)))
    ‖expand y - expand x‖ ≤ δ ∧ ‖NormedSpace.exp (expand y) - NormedSpace.exp (expand x)‖ ≤ δ := by
  obtain ⟨V, hV, w, hw, hsum⟩ := expand_diag hN x
  have hθ0 : 0 ≤ θ := (norm_nonneg _).trans hx
  have h3 : (0 : ℝ) < √3 := Real.sqrt_pos.2 (by norm_num)
  have h33 : √3 ^ 2 = 3 := Real.sq_sqrt (by norm_num)
  have hq0 : 0 ≤ θ / √3 := div_nonneg hθ0 h3.le
  have hq1 : θ / √3 ≤ 1 := by rw [div_le_one h3]; exact hθ.le
  have hθ3 : θ ^ 2 < 3 := by rw [← h33]; exact pow_lt_pow_left₀ hθ hθ0 (by norm_num)
  have hq : √3 * (θ / √3) = θ := mul_div_cancel₀ _ h3.ne'
  intro y δ
  rw [hw, norm_antiOf hV] at hx
  have hwj : ∀ j, |w j| ≤ √3 * (θ / √3) := fun j => by
    rw [hq]
    exact (norm_le_pi_norm w j).trans hx
  have hy : y = logSU eps NormedSpace.exp (expOf V w) := by
    show logSU eps NormedSpace.exp (NormedSpace.exp (expand x)) = _
    rw [hw, exp_antiOf hV]
  obtain ⟨k, -, h1, h2⟩ := logSU_run hN hV w eps
  rw [← hy] at h1 h2
  have hb := logStep_iter_bound hN w hsum hwj
  have hδ : ∀ j, |(logStep^[k] w) j| ≤ δ := by
    rcases h2 with rfl | ⟨k', rfl, h2⟩
    · exact fun j => (hb _ j).trans (le_max_left _ _)
    · obtain ⟨e, he⟩ : ∃ e, e = logStep^[k'] w := ⟨_, rfl⟩
      obtain ⟨p, hp⟩ : ∃ p, p = eps * 10 * ((N * N - 1 : ℕ) : ℝ) * (∑ i, |y i| + 1) := ⟨_, rfl⟩
      rw [← hp] at h2
      rw [Function.iterate_succ_apply', ← he] at h2 ⊢
      have hr : ∀ j, |e j| ≤ ‖e‖ := fun j => norm_le_pi_norm e j
      have heθ : ‖e‖ ≤ θ := by
        refine (pi_norm_le_iff_of_nonneg hθ0).2 fun j => ?_
        rw [he]
        refine (hb k' j).trans ?_
        calc √3 * (θ / √3) ^ 3 ^ k' ≤ √3 * (θ / √3) := by
              refine mul_le_mul_of_nonneg_left ?_ h3.le
              exact pow_le_of_le_one hq0 hq1 (by positivity)
          _ = θ := hq
      have hs0 : ∑ j, e j = 0 := by rw [he, logStep_iter_sum hN, hsum]
      have hstep : ∀ j, |logStep e j| ≤ ‖e‖ * (θ ^ 2 / 3) := fun j => by
        refine (logStep_bound hN e hs0 hr j).trans ?_
        have : ‖e‖ ^ 2 ≤ θ ^ 2 := pow_le_pow_left₀ (norm_nonneg _) heθ 2
        have h5 := mul_le_mul_of_nonneg_left this (norm_nonneg e)
        nlinarith
      have hs1 : ‖logStep e‖ ≤ ‖e‖ * (θ ^ 2 / 3) := (pi_norm_le_iff_of_nonneg (by positivity)).2 hstep
      by_cases hne : Nonempty (Fin N)
      · obtain ⟨j0⟩ := hne
        have hp0 : 0 ≤ p := (abs_nonneg _).trans (h2 j0)
        have hs2 : ‖e‖ ≤ ‖logStep e‖ + p := by
          refine (pi_norm_le_iff_of_nonneg (by positivity)).2 fun j => ?_
          have a1 := h2 j
          have a2 : |logStep e j| ≤ ‖logStep e‖ := norm_le_pi_norm (logStep e) j
          rw [Real.norm_eq_abs]
          rw [abs_sub_comm] at a1
          have a3 := abs_sub_abs_le_abs_sub (e j) (logStep e j)
          linarith
        have hpos : 0 < 3 - θ ^ 2 := by linarith
        have hs3 : ‖logStep e‖ ≤ p * (θ ^ 2 / (3 - θ ^ 2)) := by
          rw [← mul_div_assoc, le_div_iff₀ hpos]
          have := mul_le_mul_of_nonneg_right hs2 (sq_nonneg θ)
          nlinarith
        intro j
        exact (norm_le_pi_norm (logStep e) j).trans (hs3.trans ((le_of_eq (by rw [hp])).trans (le_max_right _ _)))
      · exact fun j => absurd ⟨j⟩ hne
  have hδ0 : 0 ≤ δ := (abs_nonneg _).trans (hδ ⟨0, hN⟩)
  constructor
  · rw [h1, hw, antiOf_sub, norm_antiOf hV]
    refine (pi_norm_le_iff_of_nonneg hδ0).2 fun j => ?_
    rw [Real.norm_eq_abs, show w j - (logStep^[k] w) j - w j = -(logStep^[k] w) j by ring, abs_neg]
    exact hδ j
  · rw [h1, hw, exp_antiOf hV, exp_antiOf hV, expOf_sub_norm hV]
    refine (pi_norm_le_iff_of_nonneg hδ0).2 fun j => ?_
    refine le_trans ?_ (hδ j)
    have e1 : Complex.exp (Complex.I * ((w j - (logStep^[k] w) j : ℝ) : ℂ)) - Complex.exp (Complex.I * (w j : ℂ)) =
        Complex.exp (Complex.I * (w j : ℂ)) * (Complex.exp (Complex.I * ((-(logStep^[k] w) j : ℝ) : ℂ)) - 1) := by
      rw [mul_sub, ← Complex.exp_add, mul_one]
      congr 2
      push_cast
      ring
    rw [e1, norm_mul, show Complex.I * (w j : ℂ) = (w j : ℂ) * Complex.I by ring, Complex.norm_exp_ofReal_mul_I, one_mul]
    refine (Real.norm_exp_I_mul_ofReal_sub_one_le).trans ?_
    rw [Real.norm_eq_abs, abs_neg]

/-- C64, false. For every element of the centre `log` returns 0, which is the logarithm of the unit matrix. -/
theorem C64_centre (hN : 0 < N) (ω : ℂ) (hω : ω ^ N = 1) (eps : ℝ) :
    ω • (1 : Mat N) ∈ specialUnitaryGroup (Fin N) ℂ ∧ logSU eps NormedSpace.exp (ω • (1 : Mat N)) = 0 ∧
      (ω ≠ 1 → NormedSpace.exp (expand (logSU eps NormedSpace.exp (ω • (1 : Mat N)))) ≠ ω • 1) := by
  have hn : (N : ℂ) ≠ 0 := Nat.cast_ne_zero.2 (by omega)
  have hω1 : ‖ω‖ = 1 := by
    have h := congrArg norm hω
    rw [norm_pow, norm_one] at h
    exact (pow_eq_one_iff_of_nonneg (norm_nonneg _) (by omega)).1 h
  have hωω : ω * star ω = 1 := by
    rw [Complex.star_def, Complex.mul_conj, Complex.normSq_eq_norm_sq, hω1]
    simp
  have ha : algPart (ω • (1 : Mat N)) = 0 := by
    unfold algPart
    rw [conjTranspose_smul, conjTranspose_one, ← sub_smul, smul_smul, trace_smul, trace_one, Fintype.card_fin, smul_eq_mul, mul_div_cancel_right₀ _ hn, sub_self]
  have hp : project (ω • (1 : Mat N)) = 0 := by
    have h1 := expand_project hN (ω • (1 : Mat N))
    rw [ha] at h1
    have h2 := project_expand hN (project (ω • (1 : Mat N)))
    rw [h1] at h2
    have h3 := project_expand hN (0 : Alg N)
    have h4 : expand (0 : Alg N) = 0 := by
      rw [expand_eq hN]; unfold algMat; simp
    rw [h4] at h3
    rw [← h2, h3]
  have hz : expand (0 : Alg N) = 0 := by
    rw [expand_eq hN]; unfold algMat; simp
  have hl : ∀ fprec m, logLoop fprec NormedSpace.exp (ω • (1 : Mat N)) m (ω • (1 : Mat N)) 0 = 0 := by
    intro fprec m
    induction m with
    | zero => rfl
    | succ m ih =>
      rw [logLoop]
      simp only [projectNorm, hp, Pi.zero_apply, sub_zero]
      split_ifs
      · rfl
      · rw [show (fun _ => 0 : Alg N) = 0 from rfl, hz, NormedSpace.exp_zero, Matrix.mul_one]
        exact ih
  have hlog : logSU eps NormedSpace.exp (ω • (1 : Mat N)) = 0 := by
    unfold logSU
    rw [hl, neg_zero]
  refine ⟨?_, hlog, ?_⟩
  · rw [mem_specialUnitaryGroup_iff]
    constructor
    · rw [mem_unitaryGroup_iff, star_smul, star_one, Matrix.smul_mul, Matrix.one_mul, smul_smul, hωω, one_smul]
    · rw [det_smul, det_one, Fintype.card_fin, hω, mul_one]
  · intro h1 h2
    rw [hlog, hz, NormedSpace.exp_zero] at h2
    have h3 := congrFun (congrFun h2 ⟨0, hN⟩) ⟨0, hN⟩
    rw [Matrix.smul_apply, one_apply_eq, smul_eq_mul, mul_one] at h3
    exact h1 h3.symm

theorem logStep_two (t s : ℝ) (hs : 0 ≤ s) (hs' : s ≤ Real.pi) (ht : |t| = Real.pi - s) :
    ∃ s', 0 ≤ s' ∧ s' ≤ Real.pi ∧ s' ≤ 2 * s ∧ |t - Real.sin t| = Real.pi - s' := by
  have h1 := Real.sin_le hs
  have h0 := Real.sin_nonneg_of_nonneg_of_le_pi hs hs'
  have h2 := Real.sin_le (x := Real.pi - s) (by linarith)
  rw [Real.sin_pi_sub] at h2
  refine ⟨s + Real.sin s, by linarith, by linarith, by linarith, ?_⟩
  rcases abs_choice t with h | h
  · rw [h] at ht
    rw [ht, Real.sin_pi_sub, abs_of_nonneg (by linarith)]
    ring
  · rw [h] at ht
    have ht' : t = -(Real.pi - s) := by linarith
    rw [ht', Real.sin_neg, Real.sin_pi_sub, show -(Real.pi - s) - -Real.sin s = -(Real.pi - s - Real.sin s) by ring, abs_neg, abs_of_nonneg (by linarith)]
    ring

/-- C64, false. For every SU(2) matrix close to -1 the result is far from a logarithm, for any tolerance: ten passes are not enough. -/
theorem C64_near_minus_one (x : Alg 2) (eps : ℝ) (h1 : Real.pi - Real.pi / 2048 ≤ ‖expand x‖) (h2 : ‖expand x‖ ≤ Real.pi) :
    √2 ≤ ‖NormedSpace.exp (expand (logSU eps NormedSpace.exp (NormedSpace.exp (expand x)))) - NormedSpace.exp (expand x)‖ := by
  obtain ⟨V, hV, w, hw, hsum⟩ := expand_diag (by norm_num) x
  rw [hw, norm_antiOf hV] at h1 h2
  rw [Fin.sum_univ_two] at hsum
  have hw1 : w 1 = -w 0 := by linarith
  have hnorm : ‖w‖ = |w 0| := by
    apply le_antisymm
    · refine (pi_norm_le_iff_of_nonneg (abs_nonneg _)).2 fun j => ?_
      fin_cases j
      · exact le_rfl
      · show ‖w 1‖ ≤ _
        rw [hw1, Real.norm_eq_abs, abs_neg]
    · exact norm_le_pi_norm w 0
  rw [hnorm] at h1 h2
  have hit : ∀ k, ∃ s, 0 ≤ s ∧ s ≤ Real.pi ∧ s ≤ 2 ^ k * (Real.pi / 2048) ∧ |(logStep^[k] w) 0| = Real.pi - s ∧ (logStep^[k] w) 1 = -(logStep^[k] w) 0 := by
    intro k
    induction k with
    | zero => exact ⟨Real.pi - |w 0|, by linarith, by linarith [abs_nonneg (w 0)], by linarith, by simp, hw1⟩
    | succ k ih =>
      obtain ⟨s, a1, a2, a3, a4, a5⟩ := ih
      obtain ⟨s', b1, b2, b3, b4⟩ := logStep_two _ s a1 a2 a4
      have e0 : logStep (logStep^[k] w) 0 = (logStep^[k] w) 0 - Real.sin ((logStep^[k] w) 0) := by
        generalize logStep^[k] w = e at a5
        unfold logStep
        rw [Fin.sum_univ_two, a5, Real.sin_neg]
        ring
      have e1 : logStep (logStep^[k] w) 1 = -((logStep^[k] w) 0 - Real.sin ((logStep^[k] w) 0)) := by
        generalize logStep^[k] w = e at a5
        unfold logStep
        rw [Fin.sum_univ_two, a5, Real.sin_neg]
        ring
      rw [Function.iterate_succ_apply', e0, e1]
      refine ⟨s', b1, b2, ?_, b4, rfl⟩
      rw [pow_succ]
      linarith
  obtain ⟨k, hk, hr, -⟩ := logSU_run (by norm_num) hV w eps
  obtain ⟨s, a1, a2, a3, a4, -⟩ := hit k
  have hs : s ≤ Real.pi / 2 := by
    have : (2 : ℝ) ^ k ≤ 2 ^ 10 := pow_le_pow_right₀ (by norm_num) (by omega)
    have h3 := mul_le_mul_of_nonneg_right this (show 0 ≤ Real.pi / 2048 by positivity)
    norm_num at h3
    linarith
  rw [hw, exp_antiOf hV, hr, exp_antiOf hV, expOf_sub_norm hV]
  refine le_trans ?_ (norm_le_pi_norm _ 0)
  have e1 : Complex.exp (Complex.I * ((w 0 - (logStep^[k] w) 0 : ℝ) : ℂ)) - Complex.exp (Complex.I * (w 0 : ℂ)) =
      Complex.exp (Complex.I * (w 0 : ℂ)) * (Complex.exp (Complex.I * ((-(logStep^[k] w) 0 : ℝ) : ℂ)) - 1) := by
    rw [mul_sub, ← Complex.exp_add, mul_one]
    congr 2
    push_cast
    ring
  rw [e1, norm_mul, show Complex.I * (w 0 : ℂ) = (w 0 : ℂ) * Complex.I by ring, Complex.norm_exp_ofReal_mul_I, one_mul, Complex.norm_exp_I_mul_ofReal_sub_one]
  have hc : Real.sin (Real.pi / 4) ≤ |Real.sin (-(logStep^[k] w) 0 / 2)| := by
    have e2 : |Real.sin (-(logStep^[k] w) 0 / 2)| = Real.sin ((Real.pi - s) / 2) := by
      rw [← a4]
      rcases abs_choice ((logStep^[k] w) 0) with h | h
      · rw [h, neg_div, Real.sin_neg, abs_neg, abs_of_nonneg]
        rw [h] at a4
        exact Real.sin_nonneg_of_nonneg_of_le_pi (by linarith) (by linarith)
      · rw [h, abs_of_nonneg]
        rw [h] at a4
        exact Real.sin_nonneg_of_nonneg_of_le_pi (by linarith) (by linarith)
    rw [e2]
    exact Real.sin_le_sin_of_le_of_le_pi_div_two (by linarith [Real.pi_pos]) (by linarith) (by linarith)
  rw [Real.sin_pi_div_four] at hc
  rw [Real.norm_eq_abs, abs_mul, abs_two]
  linarith

/-! ### Examples -/

theorem expand_norm_le (hN : 0 < N) (x : Alg N) : ‖expand x‖ ≤ ∑ i, |x i| := by
  obtain ⟨V, hV, w, hw, -⟩ := expand_diag hN x
  rw [hw, norm_antiOf hV]
  exact (pi_norm_le_iff_of_nonneg (Finset.sum_nonneg fun i _ => abs_nonneg _)).2 fun j => project_sup hN hV x w hw j

/-- The first theorem applies to an SU(3) matrix that is not 1. -/
example : ‖expand (Pi.single 0 1 : Alg 3)‖ ≤ 1 ∧ (1 : ℝ) < √3 ∧ expand (Pi.single 0 1 : Alg 3) ≠ 0 := by
  refine ⟨?_, ?_, ?_⟩
  · refine (expand_norm_le (by norm_num) _).trans (le_of_eq ?_)
    rw [Finset.sum_eq_single 0]
    · simp
    · intro i _ hi
      rw [Pi.single_eq_of_ne hi, abs_zero]
    · simp
  · rw [Real.lt_sqrt (by norm_num)]
    norm_num
  · intro h
    have h1 := project_expand (N := 3) (by norm_num) (Pi.single 0 1)
    have h2 := project_expand (N := 3) (by norm_num) 0
    rw [show expand (0 : Alg 3) = 0 by rw [expand_eq (by norm_num)]; unfold algMat; simp] at h2
    rw [h, h2] at h1
    have := congrFun h1 0
    simp at this

/-- There are SU(2) matrices of the last theorem. -/
example : ∃ x : Alg 2, ‖expand x‖ = Real.pi := by
  have hn : expand (Pi.single 0 1 : Alg 2) ≠ 0 := by
    intro h
    have h1 := project_expand (N := 2) (by norm_num) (Pi.single 0 1)
    have h2 := project_expand (N := 2) (by norm_num) 0
    rw [show expand (0 : Alg 2) = 0 by rw [expand_eq (by norm_num)]; unfold algMat; simp] at h2
    rw [h, h2] at h1
    have := congrFun h1 0
    simp at this
  refine ⟨(Real.pi / ‖expand (Pi.single 0 1 : Alg 2)‖) • Pi.single 0 1, ?_⟩
  rw [expand_eq (by norm_num), algMat_smul, ← expand_eq (by norm_num), norm_smul, Complex.norm_real, Real.norm_eq_abs, abs_of_nonneg
    (div_nonneg Real.pi_pos.le (norm_nonneg _)), div_mul_cancel₀ _ (norm_ne_zero_iff.2 hn)]

/-- The centre of SU(3) has elements other than 1. -/
example : ∃ ω : ℂ, ω ^ 3 = 1 ∧ ω ≠ 1 := by
  refine ⟨Complex.exp (2 * Real.pi * Complex.I / (3 : ℕ)), ?_, ?_⟩
  · exact (Complex.isPrimitiveRoot_exp 3 (by norm_num)).pow_eq_one
  · exact (Complex.isPrimitiveRoot_exp 3 (by norm_num)).ne_one (by norm_num)

end Hila
