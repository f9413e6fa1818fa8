import Verif.Model.Degauss
import Verif.Props.Force
import Verif.Props.SUN
import Mathlib.LinearAlgebra.BilinearMap

/-!
# Covariant divergence and Laplace operator
-/

set_option linter.unusedSectionVars false

namespace Hila

open Matrix

/-! ### Two steps of a gradient descent -/

section Abstract

variable {V : Type} [AddCommGroup V] [Module ℝ V] (ip : V →ₗ[ℝ] V →ₗ[ℝ] ℝ) (Y : V →ₗ[ℝ] V)

/-- A symmetric operator with spectrum in `[0, 5/4]`, without a spectral theorem. -/
structure Between : Prop where
  symm : ∀ u v, ip u v = ip v u
  self : ∀ u v, ip (Y u) v = ip u (Y v)
  pos : ∀ u, 0 ≤ ip u (Y u)
  sq : ∀ u, ip (Y u) (Y u) ≤ 5 / 4 * ip u (Y u)
  le : ∀ u, ip u (Y u) ≤ 5 / 4 * ip u u

variable {ip Y}

theorem Between.two_steps (h : Between ip Y) (G : V) :
    ip ((G - Y G) - (2 : ℝ) • Y (G - Y G)) ((G - Y G) - (2 : ℝ) • Y (G - Y G)) ≤ ip G G - 7 / 16 * ip G (Y G) := by
  have q1 := h.sq (Y G - (3 / 4 : ℝ) • G)
  have q2 := h.sq G
  have q3 := h.pos (Y G - (3 / 4 : ℝ) • G)
  have s1 := h.self G (Y G)
  have s2 := h.self G (Y (Y G))
  have s3 := h.self (Y G) (Y G)
  have s4 := h.symm (Y G) G
  have s5 := h.symm (Y (Y G)) G
  have s6 := h.symm (Y (Y G)) (Y G)
  simp only [map_sub, map_smul, LinearMap.sub_apply, LinearMap.smul_apply, smul_eq_mul, smul_sub] at q1 q2 q3 ⊢
  nlinarith

theorem Between.second_step (h : Between ip Y) (G : V) :
    ip (G - (2 : ℝ) • Y G) (G - (2 : ℝ) • Y G) ≤ 9 / 4 * ip G G := by
  have q2 := h.sq G
  have q4 := h.le G
  have s4 := h.symm (Y G) G
  simp only [map_sub, map_smul, LinearMap.sub_apply, LinearMap.smul_apply, smul_eq_mul] at q2 q4 ⊢
  nlinarith

end Abstract

variable {n : ℕ} {L : Fin n → ℕ} {N : ℕ}

/-! ### The rotation of the algebra -/

theorem project_add (hN : 0 < N) (A B : Mat N) : project (A + B) = project A + project B := by
  rw [project_eq hN, project_eq hN, project_eq hN]
  funext l; exact coef_add _ _ _

theorem project_smul (hN : 0 < N) (c : ℝ) (A : Mat N) : project ((c : ℂ) • A) = c • project A := by
  rw [project_eq hN, project_eq hN]
  funext l; exact coef_smul _ _ _

theorem expand_add (hN : 0 < N) (a b : Alg N) : expand (a + b) = expand a + expand b := by
  rw [expand_eq hN, expand_eq hN, expand_eq hN]
  unfold algMat
  rw [← Finset.sum_add_distrib]
  refine Finset.sum_congr rfl fun l _ => ?_
  rw [Pi.add_apply, Complex.ofReal_add, add_smul]

theorem expand_smul (hN : 0 < N) (c : ℝ) (a : Alg N) : expand (c • a) = (c : ℂ) • expand a := by
  rw [expand_eq hN, expand_eq hN, algMat_smul]

theorem leftConj_add (hN : 0 < N) (U : Mat N) (a b : Alg N) : leftConj U (a + b) = leftConj U a + leftConj U b := by
  unfold leftConj
  rw [expand_add hN, Matrix.mul_add, Matrix.add_mul, project_add hN]

theorem leftConj_smul (hN : 0 < N) (U : Mat N) (c : ℝ) (a : Alg N) : leftConj U (c • a) = c • leftConj U a := by
  unfold leftConj
  rw [expand_smul hN, Matrix.mul_smul, Matrix.smul_mul, project_smul hN]

theorem rightConj_eq (U : Mat N) (a : Alg N) : rightConj U a = leftConj Uᴴ a := by
  unfold rightConj leftConj
  rw [Matrix.conjTranspose_conjTranspose]

theorem leftConj_one (hN : 0 < N) (a : Alg N) : leftConj 1 a = a := by
  unfold leftConj
  rw [Matrix.conjTranspose_one, Matrix.one_mul, Matrix.mul_one, project_expand hN]

/-- Scalar product. -/
def sdot (a b : Alg N) : ℝ := ∑ k, a k * b k

theorem conj_dot (hN : 0 < N) {U : Mat N} (hU : U ∈ Matrix.unitaryGroup (Fin N) ℂ) (a b : Alg N) :
    sdot (leftConj U a) b = sdot a (rightConj U b) := by
  obtain ⟨-, -, -, h1, -⟩ := C50_conjugation hN hU b b
  obtain ⟨-, -, -, -, h2⟩ := C50_conjugation hN hU a (rightConj U b)
  rw [h1] at h2
  unfold Alg.dot at h2
  unfold sdot
  linarith

theorem conj_norm (hN : 0 < N) {U : Mat N} (hU : U ∈ Matrix.unitaryGroup (Fin N) ℂ) (a : Alg N) :
    sdot (leftConj U a) (leftConj U a) = sdot a a := by
  obtain ⟨-, -, h1, -, -⟩ := C50_conjugation hN hU a a
  rw [conj_dot hN hU, h1]

theorem conj_norm_right (hN : 0 < N) {U : Mat N} (hU : U ∈ Matrix.unitaryGroup (Fin N) ℂ) (a : Alg N) :
    sdot (rightConj U a) (rightConj U a) = sdot a a := by
  rw [rightConj_eq]
  exact conj_norm hN (Unitary.star_mem hU) a

/-! ### Divergence and gradient -/

/-- The covariant gradient. -/
noncomputable def covGrad (U : GField L N) (G : AlgSite L N) : AlgField L N := fun d x => G x - leftConj (U d x) (G (x + Pi.single d 1))

theorem gaussViolation_eq (U : GField L N) (E : AlgField L N) (x : PSite L) :
    gaussViolation U E x = ∑ d, (E d x - rightConj (U d (x - Pi.single d 1)) (E d (x - Pi.single d 1))) := rfl

theorem gaussFixStep_eq (U : GField L N) (E : AlgField L N) (v : AlgSite L N) (mag : ℝ) :
    gaussFixStep U E v mag = E - mag • covGrad U v := rfl

/-- Divergence as a linear map. -/
noncomputable def divL (hN : 0 < N) (U : GField L N) : AlgField L N →ₗ[ℝ] AlgSite L N where
  toFun E := gaussViolation U E
  map_add' E F := by
    funext x
    simp only [gaussViolation_eq, Pi.add_apply, rightConj_eq, leftConj_add hN]
    rw [← Finset.sum_add_distrib]
    refine Finset.sum_congr rfl fun d _ => ?_
    abel
  map_smul' c E := by
    funext x
    simp only [gaussViolation_eq, Pi.smul_apply, rightConj_eq, leftConj_smul hN, RingHom.id_apply, Finset.smul_sum, smul_sub]

/-- Gradient as a linear map. -/
noncomputable def gradL (hN : 0 < N) (U : GField L N) : AlgSite L N →ₗ[ℝ] AlgField L N where
  toFun G := covGrad U G
  map_add' E F := by
    funext d x
    simp only [covGrad, Pi.add_apply, leftConj_add hN]
    abel
  map_smul' c E := by
    funext d x
    simp only [covGrad, Pi.smul_apply, leftConj_smul hN, RingHom.id_apply, smul_sub]

/-- Scalar product of site fields. -/
noncomputable def ipS [∀ d, NeZero (L d)] : AlgSite L N →ₗ[ℝ] AlgSite L N →ₗ[ℝ] ℝ :=
  LinearMap.mk₂ ℝ (fun G H => ∑ x, sdot (G x) (H x))
    (fun a b c => by simp only [sdot, Pi.add_apply, add_mul, Finset.sum_add_distrib])
    (fun r a b => by simp only [sdot, Pi.smul_apply, smul_eq_mul, mul_assoc, Finset.mul_sum])
    (fun a b c => by simp only [sdot, Pi.add_apply, mul_add, Finset.sum_add_distrib])
    (fun r a b => by simp only [sdot, Pi.smul_apply, smul_eq_mul, mul_left_comm, Finset.mul_sum])

theorem ipS_apply [∀ d, NeZero (L d)] (G H : AlgSite L N) : ipS G H = ∑ x, sdot (G x) (H x) := rfl

theorem squarenorm_eq [∀ d, NeZero (L d)] (G : AlgSite L N) : G.squarenorm = ipS G G := by
  rw [ipS_apply]
  unfold AlgSite.squarenorm Alg.squarenorm sdot
  exact Finset.sum_congr rfl fun x _ => Finset.sum_congr rfl fun k _ => pow_two _

theorem pairK_eq [∀ d, NeZero (L d)] (a K : AlgField L N) : pairK a K = ∑ d, ∑ x, sdot (a d x) (K d x) := rfl

theorem sdot_sub_right (a b c : Alg N) : sdot a (b - c) = sdot a b - sdot a c := by
  unfold sdot; rw [← Finset.sum_sub_distrib]; exact Finset.sum_congr rfl fun k _ => by rw [Pi.sub_apply]; ring

theorem sdot_sub_left (a b c : Alg N) : sdot (a - b) c = sdot a c - sdot b c := by
  unfold sdot; rw [← Finset.sum_sub_distrib]; exact Finset.sum_congr rfl fun k _ => by rw [Pi.sub_apply]; ring

theorem sdot_sum_right {ι : Type} (s : Finset ι) (a : Alg N) (f : ι → Alg N) : sdot a (∑ i ∈ s, f i) = ∑ i ∈ s, sdot a (f i) := by
  unfold sdot
  rw [Finset.sum_comm]
  refine Finset.sum_congr rfl fun k _ => ?_
  rw [Finset.sum_apply, Finset.mul_sum]

theorem sdot_nonneg (a : Alg N) : 0 ≤ sdot a a := Finset.sum_nonneg fun k _ => mul_self_nonneg _

/-- The gradient is the adjoint of the divergence. -/
theorem div_adjoint [∀ d, NeZero (L d)] (hN : 0 < N) {U : GField L N} (hU : IsUnitaryField U) (G : AlgSite L N) (E : AlgField L N) :
    ipS G (gaussViolation U E) = pairK (covGrad U G) E := by
  rw [ipS_apply, pairK_eq]
  simp only [gaussViolation_eq, sdot_sum_right, sdot_sub_right, covGrad, sdot_sub_left]
  rw [Finset.sum_comm]
  refine Finset.sum_congr rfl fun d _ => ?_
  rw [Finset.sum_sub_distrib, Finset.sum_sub_distrib]
  congr 1
  rw [← sum_shift (Pi.single d 1)]
  refine Finset.sum_congr rfl fun x _ => ?_
  rw [add_sub_cancel_right, conj_dot hN (hU d x)]

/-- Bound of the divergence. -/
theorem div_bound [∀ d, NeZero (L d)] (hN : 0 < N) {U : GField L N} (hU : IsUnitaryField U) (E : AlgField L N) :
    ipS (gaussViolation U E) (gaussViolation U E) ≤ 4 * n * pairK E E := by
  have h1 : ∀ x, sdot (gaussViolation U E x) (gaussViolation U E x) ≤
      2 * n * ∑ d, (sdot (E d x) (E d x) + sdot (E d (x - Pi.single d 1)) (E d (x - Pi.single d 1))) := by
    intro x
    have e : ∀ d, sdot (E d (x - Pi.single d 1)) (E d (x - Pi.single d 1)) =
        sdot (rightConj (U d (x - Pi.single d 1)) (E d (x - Pi.single d 1))) (rightConj (U d (x - Pi.single d 1)) (E d (x - Pi.single d 1))) :=
      fun d => (conj_norm_right hN (hU d _) _).symm
    simp only [e, gaussViolation_eq]
    unfold sdot
    simp only [← Finset.sum_add_distrib]
    rw [Finset.sum_comm, Finset.mul_sum]
    refine Finset.sum_le_sum fun k _ => ?_
    rw [Finset.sum_apply, ← pow_two]
    have cs := Finset.sum_mul_sq_le_sq_mul_sq Finset.univ (fun _ : Fin n => (1 : ℝ))
      (fun d => (E d x - rightConj (U d (x - Pi.single d 1)) (E d (x - Pi.single d 1))) k)
    simp only [one_mul, one_pow, Finset.sum_const, Finset.card_univ, Fintype.card_fin, nsmul_eq_mul, mul_one] at cs
    refine cs.trans ?_
    rw [mul_assoc, mul_left_comm]
    refine mul_le_mul_of_nonneg_left ?_ (Nat.cast_nonneg n)
    rw [Finset.mul_sum]
    refine Finset.sum_le_sum fun d _ => ?_
    rw [Pi.sub_apply]
    nlinarith [sq_nonneg ((E d x) k + (rightConj (U d (x - Pi.single d 1)) (E d (x - Pi.single d 1))) k)]
  rw [ipS_apply]
  refine (Finset.sum_le_sum fun x _ => h1 x).trans (le_of_eq ?_)
  rw [← Finset.mul_sum, Finset.sum_comm]
  have e2 : ∀ d, ∑ x, (sdot (E d x) (E d x) + sdot (E d (x - Pi.single d 1)) (E d (x - Pi.single d 1))) = 2 * ∑ x, sdot (E d x) (E d x) := by
    intro d
    have e3 := sum_shift (L := L) (Pi.single d 1) fun x => sdot (E d (x - Pi.single d 1)) (E d (x - Pi.single d 1))
    simp only [add_sub_cancel_right] at e3
    rw [Finset.sum_add_distrib, ← e3]
    ring
  simp only [e2]
  rw [← Finset.mul_sum, pairK_eq]
  ring

/-- Bound of the gradient. -/
theorem grad_bound [∀ d, NeZero (L d)] (hN : 0 < N) {U : GField L N} (hU : IsUnitaryField U) (G : AlgSite L N) :
    pairK (covGrad U G) (covGrad U G) ≤ 4 * n * ipS G G := by
  rw [pairK_eq]
  have h1 : ∀ d, ∑ x, sdot (covGrad U G d x) (covGrad U G d x) ≤ 4 * ∑ x, sdot (G x) (G x) := by
    intro d
    have h2 : ∀ x, sdot (covGrad U G d x) (covGrad U G d x) ≤ 2 * (sdot (G x) (G x) + sdot (G (x + Pi.single d 1)) (G (x + Pi.single d 1))) := by
      intro x
      rw [← conj_norm hN (hU d x) (G (x + Pi.single d 1))]
      unfold sdot covGrad
      rw [← Finset.sum_add_distrib, Finset.mul_sum]
      refine Finset.sum_le_sum fun k _ => ?_
      rw [Pi.sub_apply]
      nlinarith [sq_nonneg (G x k + leftConj (U d x) (G (x + Pi.single d 1)) k)]
    refine (Finset.sum_le_sum fun x _ => h2 x).trans (le_of_eq ?_)
    rw [← Finset.mul_sum, Finset.sum_add_distrib, sum_shift (Pi.single d 1) fun x => sdot (G x) (G x)]
    ring
  refine (Finset.sum_le_sum fun d _ => h1 d).trans (le_of_eq ?_)
  rw [Finset.sum_const, Finset.card_univ, Fintype.card_fin, nsmul_eq_mul, ipS_apply]
  ring

/-- The smaller step. -/
noncomputable def aleph1 : ℝ := 1.25 / 12

/-- The operator that one step subtracts. -/
noncomputable def stepL (hN : 0 < N) (U : GField L N) : AlgSite L N →ₗ[ℝ] AlgSite L N := aleph1 • (divL hN U ∘ₗ gradL hN U)

theorem stepL_apply (hN : 0 < N) (U : GField L N) (G : AlgSite L N) : stepL hN U G = aleph1 • gaussViolation U (covGrad U G) := rfl

theorem step_between [∀ d, NeZero (L d)] (hN : 0 < N) (hn : n ≤ 3) {U : GField L N} (hU : IsUnitaryField U) : Between ipS (stepL hN U) := by
  have hsym : ∀ u v : AlgSite L N, ipS u v = ipS v u := by
    intro u v
    rw [ipS_apply, ipS_apply]
    unfold sdot
    exact Finset.sum_congr rfl fun x _ => Finset.sum_congr rfl fun k _ => mul_comm _ _
  have hpk : ∀ a b : AlgField L N, pairK a b = pairK b a := by
    intro a b
    unfold pairK
    exact Finset.sum_congr rfl fun d _ => Finset.sum_congr rfl fun x _ => Finset.sum_congr rfl fun k _ => mul_comm _ _
  have hm : ∀ u v, ipS u (stepL hN U v) = aleph1 * pairK (covGrad U u) (covGrad U v) := by
    intro u v
    rw [stepL_apply, map_smul, smul_eq_mul, div_adjoint hN hU]
  have hpos : ∀ E : AlgField L N, 0 ≤ pairK E E := by
    intro E
    rw [pairK_eq]
    exact Finset.sum_nonneg fun d _ => Finset.sum_nonneg fun x _ => sdot_nonneg _
  have hip : ∀ G : AlgSite L N, 0 ≤ ipS G G := by
    intro G
    rw [ipS_apply]
    exact Finset.sum_nonneg fun x _ => sdot_nonneg _
  have hn' : (n : ℝ) ≤ 3 := by exact_mod_cast hn
  have ha : aleph1 = 5 / 48 := by unfold aleph1; norm_num
  refine ⟨hsym, fun u v => ?_, fun u => ?_, fun u => ?_, fun u => ?_⟩
  · rw [hsym, hm, hm, hpk]
  · rw [hm, ha]; have := hpos (covGrad U u); positivity
  · have e : ipS (stepL hN U u) (stepL hN U u) = aleph1 * (aleph1 * ipS (gaussViolation U (covGrad U u)) (gaussViolation U (covGrad U u))) := by
      rw [stepL_apply, map_smul, map_smul, LinearMap.smul_apply, smul_eq_mul, smul_eq_mul]
    rw [e, hm, ha]
    have := div_bound hN hU (covGrad U u)
    have := hpos (covGrad U u)
    nlinarith
  · rw [hm, ha]
    have := grad_bound hN hU u
    have := hip u
    nlinarith

end Hila
