import Verif.Lemmas.StoutExp

/-!
# The pullback of a force under stout smearing
-/

set_option linter.unusedSectionVars false

namespace Hila

open Matrix

variable {n : ℕ} {L : Fin n → ℕ} {N : ℕ}

/-- One stout smearing step: each link is multiplied by the exponential of the traceless antihermitian part of the sum of
its plaquettes, times `-c`. -/
noncomputable def stoutSpec (c : ℝ) (U : GField L N) : GField L N := fun d x =>
  NormedSpace.exp (((-c : ℝ) : ℂ) • algPart (U d x * stapleSum U d x)) * U d x

/-- The pair `m` of matrices is what `mult_chexp` is meant to return for `X` and `M`: `exp(X)† M exp(X)` and the matrix
that gives `tr(exp(X)† M D)` for each derivative `D` of the exponential in a direction `Z`, as the trace with `Z`. -/
def IsMultExp (X M : Mat N) (m : Mat N × Mat N) : Prop :=
  m.1 = (NormedSpace.exp X)ᴴ * M * NormedSpace.exp X ∧
    ∀ Z D, DexpAt X Z D → (m.2 * Z).trace = ((NormedSpace.exp X)ᴴ * M * D).trace

/-- The functions of the exponential without error. -/
structure ExactExp (e : StoutExp N) : Prop where
  ex : ∀ X, e.ex X = NormedSpace.exp X
  multEx : ∀ X M, IsMultExp X M (e.multEx X M)
  exk : ∀ X, (e.exk X).1 = NormedSpace.exp X
  multFast : ∀ X M, IsMultExp X M (e.multFast X (NormedSpace.exp X) (e.exk X).2 M)

theorem stoutSmear1_eq (hN : 0 < N) {e : StoutExp N} (he : ExactExp e) (c : ℝ) (U : GField L N) : stoutSmear1 e c U = stoutSpec c U := by
  funext d x
  show e.ex (stoutArg c (U d x) (staplesums U d x)) * U d x = _
  rw [he.ex, stoutArg_eq hN, staplesums_eq]
  rfl

theorem stoutSmear1k_eq (hN : 0 < N) {e : StoutExp N} (he : ExactExp e) (c : ℝ) (U : GField L N) : stoutSmear1k e c U = stoutSpec c U := by
  funext d x
  show (e.exk (stoutArg c (U d x) (staplesums U d x))).1 * U d x = _
  rw [he.exk, stoutArg_eq hN, staplesums_eq]
  rfl

/-- One link. -/
theorem pull_link (hN : 0 < N) (c : ℝ) (A U S S' : Mat N) (a : Alg N) (hA : A = algMat a) (D : Mat N)
    (hD : DexpAt (stoutArg c U S) (((-c : ℝ) : ℂ) • algPart (A * U * S + U * S')) D)
    (b : Alg N) (hb : algMat b = D * (NormedSpace.exp (stoutArg c U S))ᴴ + NormedSpace.exp (stoutArg c U S) * A * (NormedSpace.exp (stoutArg c U S))ᴴ)
    (K : Alg N) (m : Mat N × Mat N) (hm : IsMultExp (stoutArg c U S) (expand K) m) :
    ∑ k, b k * K k = ∑ k, a k * project (m.1 - U * S * expand (projectScaled m.2 c)) k +
      2 * (S' * (expand (projectScaled m.2 c) * U)).trace.re := by
  obtain ⟨E, hE⟩ : ∃ E, E = NormedSpace.exp (stoutArg c U S) := ⟨_, rfl⟩
  obtain ⟨h1, h2⟩ := hm
  rw [← hE] at h1 h2 hb
  obtain ⟨Λ, hΛ⟩ : ∃ Λ, Λ = expand (projectScaled m.2 c) := ⟨_, rfl⟩
  have hL : ∑ k, b k * K k = -(2 * (expand K * algMat b).trace.re) := by
    rw [expand_eq hN, ← sum_coef_project hN, ← expand_eq hN, project_expand hN]
    exact Finset.sum_congr rfl fun k _ => mul_comm _ _
  rw [hL, sum_coef_project hN, ← hA, ← hΛ, hb, Matrix.mul_add, Matrix.trace_add, Complex.add_re]
  have e1 : (expand K * (D * Eᴴ)).trace.re = -(Λ * (A * U * S + U * S')).trace.re := by
    rw [← Matrix.mul_assoc, Matrix.trace_mul_comm, ← Matrix.mul_assoc, ← h2 _ _ hD, Matrix.mul_smul, Matrix.trace_smul, smul_eq_mul,
      Complex.re_ofReal_mul, algPart_adj hN, hΛ, expand_projectScaled hN, Matrix.smul_mul, Matrix.trace_smul, smul_eq_mul, Complex.re_ofReal_mul]
    ring
  have e2 : (expand K * (E * A * Eᴴ)).trace = (A * m.1).trace := by
    rw [h1, ← Matrix.mul_assoc, Matrix.trace_mul_comm, ← Matrix.mul_assoc (expand K), ← Matrix.mul_assoc, Matrix.trace_mul_comm]
    simp only [Matrix.mul_assoc]
  have e3 : (Λ * (A * U * S)).trace = (A * (U * S * Λ)).trace := by
    rw [Matrix.trace_mul_comm]
    simp only [Matrix.mul_assoc]
  have e4 : (Λ * (U * S')).trace = (S' * (Λ * U)).trace := by
    rw [← Matrix.mul_assoc, Matrix.trace_mul_comm]
  rw [e1, e2, Matrix.mul_add, Matrix.trace_add, e3, e4, Matrix.mul_sub, Matrix.trace_sub, Complex.sub_re, Complex.add_re]
  ring

/-- The result of the first half of a step for any pairs of matrices, with the rest of the derivative. -/
theorem pull_head [∀ d, NeZero (L d)] (hN : 0 < N) {U : ℝ → GField L N} {a : AlgField L N} (h : LinkCurve U fun d x => algMat (a d x)) (c : ℝ) :
    ∃ b : AlgField L N, LinkCurve (fun t => stoutSpec c (U t)) (fun d x => algMat (b d x)) ∧
      ∀ (K : AlgField L N) (m : Fin n → PSite L → Mat N × Mat N),
        (∀ d x, IsMultExp (stoutArg c (U 0 d x) (stapleSum (U 0) d x)) (expand (K d x)) (m d x)) →
        pairK b K = pairK a (stoutForceHead c (U 0) (stapleSum (U 0)) m).2 +
          2 * ∑ d, ∑ x, (dStapleSum (fun d x => algMat (a d x)) (U 0) d x * (stoutForceHead c (U 0) (stapleSum (U 0)) m).1 d x).trace.re := by
  have key : ∀ d x, ∃ (D : Mat N) (b : Alg N),
      DexpAt (stoutArg c (U 0 d x) (stapleSum (U 0) d x)) (((-c : ℝ) : ℂ) • algPart (algMat (a d x) * U 0 d x * stapleSum (U 0) d x +
        U 0 d x * dStapleSum (fun d x => algMat (a d x)) (U 0) d x)) D ∧
      algMat b = D * (NormedSpace.exp (stoutArg c (U 0 d x) (stapleSum (U 0) d x)))ᴴ +
        NormedSpace.exp (stoutArg c (U 0 d x) (stapleSum (U 0) d x)) * algMat (a d x) * (NormedSpace.exp (stoutArg c (U 0 d x) (stapleSum (U 0) d x)))ᴴ ∧
      MDeriv (fun t => stoutSpec c (U t) d x) (algMat b * stoutSpec c (U 0) d x) := by
    intro d x
    obtain ⟨f, hf⟩ := dexp_linear (stoutArg c (U 0 d x) (stapleSum (U 0) d x))
    have hD := hf (((-c : ℝ) : ℂ) • algPart (algMat (a d x) * U 0 d x * stapleSum (U 0) d x + U 0 d x * dStapleSum (fun d x => algMat (a d x)) (U 0) d x))
    generalize f (((-c : ℝ) : ℂ) • algPart (algMat (a d x) * U 0 d x * stapleSum (U 0) d x + U 0 d x * dStapleSum (fun d x => algMat (a d x)) (U 0) d x)) = D at hD
    have hP := (h d x).mul (stapleSum_deriv h d x)
    have hX : MDeriv (fun t => stoutArg c (U t d x) (stapleSum (U t) d x)) (((-c : ℝ) : ℂ) • algPart (algMat (a d x) * U 0 d x * stapleSum (U 0) d x +
        U 0 d x * dStapleSum (fun d x => algMat (a d x)) (U 0) d x)) := by
      simp only [stoutArg_eq hN]
      exact (algPart_deriv hP).smul _
    have hE := hD _ rfl hX
    obtain ⟨g1, g2⟩ := dexp_alg (fun t => stoutArg_conj hN c (U t d x) (stapleSum (U t) d x)) (fun t => stoutArg_trace hN c (U t d x) (stapleSum (U t) d x)) hE
    have hu := exp_antiherm_unitary (stoutArg_conj hN c (U 0 d x) (stapleSum (U 0) d x))
    have hspec : ∀ t, stoutSpec c (U t) d x = NormedSpace.exp (stoutArg c (U t d x) (stapleSum (U t) d x)) * U t d x := by
      intro t; rw [stoutArg_eq hN]; rfl
    have hV := hE.mul (h d x)
    have h0 := hspec 0
    obtain ⟨E, hEd⟩ : ∃ E, E = NormedSpace.exp (stoutArg c (U 0 d x) (stapleSum (U 0) d x)) := ⟨_, rfl⟩
    rw [← hEd] at g1 g2 hu hV h0 ⊢
    have hu' : Eᴴ * E = 1 := mul_eq_one_comm.1 hu
    have hB : algPart (D * Eᴴ + E * algMat (a d x) * Eᴴ) = D * Eᴴ + E * algMat (a d x) * Eᴴ := by
      refine algPart_self _ ?_ ?_
      · rw [Matrix.conjTranspose_add, g1, Matrix.conjTranspose_mul, Matrix.conjTranspose_mul, Matrix.conjTranspose_conjTranspose, algMat_conj,
          neg_add, ← Matrix.mul_assoc, Matrix.mul_neg, Matrix.neg_mul]
      · rw [Matrix.trace_add, g2, Matrix.trace_mul_comm, ← Matrix.mul_assoc, hu', Matrix.one_mul, algMat_trace hN, add_zero]
    refine ⟨D, project (D * Eᴴ + E * algMat (a d x) * Eᴴ), hD, ?_, ?_⟩
    · rw [← expand_eq hN, expand_project hN, hB]
    · rw [← expand_eq hN, expand_project hN, hB]
      have e : D * U 0 d x + E * (algMat (a d x) * U 0 d x) = (D * Eᴴ + E * algMat (a d x) * Eᴴ) * (E * U 0 d x) := by
        rw [Matrix.add_mul, Matrix.mul_assoc D, Matrix.mul_assoc (E * algMat (a d x)), ← Matrix.mul_assoc Eᴴ, hu', Matrix.one_mul, Matrix.mul_assoc]
      rw [h0, ← e]
      simp only [hspec]
      exact hV
  choose D b h1 h2 h3 using key
  refine ⟨b, h3, fun K m hm => ?_⟩
  unfold pairK
  rw [Finset.mul_sum, ← Finset.sum_add_distrib]
  refine Finset.sum_congr rfl fun d _ => ?_
  rw [Finset.mul_sum, ← Finset.sum_add_distrib]
  refine Finset.sum_congr rfl fun x _ => ?_
  exact pull_link hN c _ _ _ _ (a d x) rfl (D d x) (h1 d x) (b d x) (h2 d x) (K d x) (m d x) (hm d x)

end Hila
