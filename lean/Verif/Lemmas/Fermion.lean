import Verif.Props.Stagg
import Mathlib.Analysis.Complex.RealDeriv
import Mathlib.Analysis.Calculus.Deriv.Inv
import Mathlib.Analysis.Calculus.Deriv.Pow
import Mathlib.LinearAlgebra.Matrix.NonsingularInverse
import Mathlib.LinearAlgebra.Matrix.ToLin

/-!
# Solutions of linear systems that depend on a parameter
-/

namespace Hila

open Matrix

section
variable {I : Type} [Fintype I] [DecidableEq I]

theorem det_differentiable {T : ℝ → Matrix I I ℂ} {t0 : ℝ} (hT : ∀ i j, DifferentiableAt ℝ (fun t => T t i j) t0) :
    DifferentiableAt ℝ (fun t => (T t).det) t0 := by
  simp only [det_apply]
  refine DifferentiableAt.fun_sum fun s _ => ?_
  refine DifferentiableAt.fun_const_smul ?_ (Equiv.Perm.sign s)
  exact DifferentiableAt.fun_finset_prod fun i _ => hT _ _

theorem adjugate_differentiable {T : ℝ → Matrix I I ℂ} {t0 : ℝ} (hT : ∀ i j, DifferentiableAt ℝ (fun t => T t i j) t0) (i j : I) :
    DifferentiableAt ℝ (fun t => (T t).adjugate i j) t0 := by
  simp only [adjugate_apply]
  refine det_differentiable fun k l => ?_
  by_cases h : k = j
  · subst h
    simp only [updateRow_self]
    exact differentiableAt_const _
  · simp only [updateRow_ne h]
    exact hT k l

/-- The solution of a linear system depends differentiably on it. -/
theorem solution_differentiable {T : ℝ → Matrix I I ℂ} {b v : ℝ → I → ℂ} (hT : ∀ i j, DifferentiableAt ℝ (fun t => T t i j) 0)
    (hb : ∀ i, DifferentiableAt ℝ (fun t => b t i) 0) (hdet : (T 0).det ≠ 0) (hv : ∀ᶠ t in nhds 0, (T t).mulVec (v t) = b t) (i : I) :
    DifferentiableAt ℝ (fun t => v t i) 0 := by
  have h1 : ∀ᶠ t in nhds 0, (T t).det ≠ 0 := (det_differentiable hT).continuousAt.eventually_ne hdet
  have h2 : (fun t => v t i) =ᶠ[nhds 0] fun t => ((T t).det)⁻¹ * ((T t).adjugate.mulVec (b t)) i := by
    filter_upwards [h1, hv] with t ht hvt
    rw [← hvt, mulVec_mulVec, adjugate_mul, smul_mulVec, one_mulVec, Pi.smul_apply, smul_eq_mul, inv_mul_cancel_left₀ ht]
  refine DifferentiableAt.congr_of_eventuallyEq ?_ h2
  refine ((det_differentiable hT).inv hdet).mul ?_
  unfold mulVec dotProduct
  exact DifferentiableAt.fun_sum fun j _ => (adjugate_differentiable hT i j).mul (hb j)

/-- The entries of a vector have derivatives. -/
def VDeriv (f : ℝ → I → ℂ) (f' : I → ℂ) : Prop := ∀ i, HasDerivAt (fun t => f t i) (f' i) 0

/-- The entries of a matrix have derivatives. -/
def KDeriv (f : ℝ → Matrix I I ℂ) (f' : Matrix I I ℂ) : Prop := ∀ i j, HasDerivAt (fun t => f t i j) (f' i j) 0

omit [DecidableEq I] in
theorem KDeriv.mul {f g : ℝ → Matrix I I ℂ} {f' g' : Matrix I I ℂ} (hf : KDeriv f f') (hg : KDeriv g g') :
    KDeriv (fun t => f t * g t) (f' * g 0 + f 0 * g') := by
  intro i j
  simp only [Matrix.add_apply, Matrix.mul_apply, ← Finset.sum_add_distrib]
  exact HasDerivAt.fun_sum fun k _ => (hf i k).mul (hg k j)

omit [Fintype I] [DecidableEq I] in
theorem KDeriv.star {f : ℝ → Matrix I I ℂ} {f' : Matrix I I ℂ} (hf : KDeriv f f') : KDeriv (fun t => (f t)ᴴ) f'ᴴ := fun i j => (hf j i).star

omit [DecidableEq I] in
theorem KDeriv.mulVec {f : ℝ → Matrix I I ℂ} {f' : Matrix I I ℂ} {v : ℝ → I → ℂ} {v' : I → ℂ} (hf : KDeriv f f') (hv : VDeriv v v') :
    VDeriv (fun t => (f t).mulVec (v t)) (f'.mulVec (v 0) + (f 0).mulVec v') := by
  intro i
  rw [Pi.add_apply]
  unfold Matrix.mulVec dotProduct
  rw [← Finset.sum_add_distrib]
  exact HasDerivAt.fun_sum fun j _ => (hf i j).mul (hv j)

omit [DecidableEq I] in
theorem VDeriv.dot {v w : ℝ → I → ℂ} {v' w' : I → ℂ} (hv : VDeriv v v') (hw : VDeriv w w') :
    HasDerivAt (fun t => star (v t) ⬝ᵥ w t) (star v' ⬝ᵥ w 0 + star (v 0) ⬝ᵥ w') 0 := by
  unfold dotProduct
  rw [← Finset.sum_add_distrib]
  exact HasDerivAt.fun_sum fun j _ => (hv j).star.mul (hw j)

omit [DecidableEq I] in
theorem re_dot_comm (a b : I → ℂ) : (star a ⬝ᵥ b).re = (star b ⬝ᵥ a).re := by
  have h : star a ⬝ᵥ b = star (star b ⬝ᵥ a) := by rw [star_dotProduct]
  rw [h]
  exact Complex.conj_re _

omit [DecidableEq I] in
theorem dot_mulVec_star (K : Matrix I I ℂ) (a b : I → ℂ) : star a ⬝ᵥ K.mulVec b = star (Kᴴ.mulVec a) ⬝ᵥ b := by
  rw [star_mulVec, conjTranspose_conjTranspose, dotProduct_mulVec]

/-- The derivative of `⟨b, (K†K)⁻¹ b⟩`. -/
theorem normal_deriv {K : ℝ → Matrix I I ℂ} {K' : Matrix I I ℂ} {b v : ℝ → I → ℂ} {b' : I → ℂ} (hK : KDeriv K K') (hb : VDeriv b b')
    (hdet : ((K 0)ᴴ * K 0).det ≠ 0) (hv : ∀ᶠ t in nhds 0, ((K t)ᴴ * K t).mulVec (v t) = b t) :
    HasDerivAt (fun t => (star (b t) ⬝ᵥ v t).re)
      ((star b' ⬝ᵥ v 0).re + (star (v 0) ⬝ᵥ b').re - (star (v 0) ⬝ᵥ K'ᴴ.mulVec ((K 0).mulVec (v 0))).re -
        (star ((K 0).mulVec (v 0)) ⬝ᵥ K'.mulVec (v 0)).re) 0 := by
  have hT := hK.star.mul hK
  have hd := solution_differentiable (fun i j => (hT i j).differentiableAt) (fun i => (hb i).differentiableAt) hdet hv
  let v' : I → ℂ := fun i => deriv (fun t => v t i) 0
  have hv' : VDeriv v v' := fun i => (hd i).hasDerivAt
  have h0 : ((K 0)ᴴ * K 0).mulVec (v 0) = b 0 := hv.self_of_nhds
  have e1 : (K'ᴴ * K 0 + (K 0)ᴴ * K').mulVec (v 0) + ((K 0)ᴴ * K 0).mulVec v' = b' := by
    funext i
    have h1 := hT.mulVec hv' i
    have h2 : (fun t => ((K t)ᴴ * K t).mulVec (v t) i) =ᶠ[nhds 0] fun t => b t i := hv.mono fun t ht => congrFun ht i
    exact (h1.congr_of_eventuallyEq h2.symm).unique (hb i)
  have h3 := hb.dot hv'
  refine (Complex.reCLM.hasFDerivAt.comp_hasDerivAt 0 h3).congr_deriv ?_
  change (star b' ⬝ᵥ v 0 + star (b 0) ⬝ᵥ v').re = _
  have e2 : star (b 0) ⬝ᵥ v' = star (v 0) ⬝ᵥ ((K 0)ᴴ * K 0).mulVec v' := by
    rw [dot_mulVec_star, conjTranspose_mul, conjTranspose_conjTranspose, h0]
  have e3 : ((K 0)ᴴ * K 0).mulVec v' = b' - (K'ᴴ * K 0 + (K 0)ᴴ * K').mulVec (v 0) := by rw [← e1]; abel
  rw [e2, e3, dotProduct_sub, add_mulVec, dotProduct_add, ← mulVec_mulVec, ← mulVec_mulVec, dot_mulVec_star ((K 0)ᴴ), conjTranspose_conjTranspose,
    Complex.add_re, Complex.sub_re, Complex.add_re]
  ring

omit [DecidableEq I] in
/-- A matrix whose system always has a solution has a determinant. -/
theorem det_of_solve [DecidableEq I] {T : Matrix I I ℂ} (h : ∀ b, ∃ v, T.mulVec v = b) : T.det ≠ 0 := by
  have h1 : Function.Surjective T.mulVec := h
  have h2 := (mulVec_surjective_iff_isUnit).1 h1
  exact ((isUnit_iff_isUnit_det T).1 h2).ne_zero

end

/-! ### The matrix of an operator -/

variable {n : ℕ} {L : Fin n → ℕ} {N : ℕ}

/-- The components of a fermion field at the sites of a parity. -/
abbrev ParIdx (L : Fin n → ℕ) (N : ℕ) (par : Parity) := {x : PSite L // VisitsPar par x} × Fin N

/-- The components of a field at the sites of a parity. -/
def vecOn (par : Parity) (f : CField L N) : ParIdx L N par → ℂ := fun i => f i.1.1 i.2

/-- The field with given components. -/
noncomputable def fieldOn (par : Parity) (v : ParIdx L N par → ℂ) : CField L N := by
  classical
  exact fun x i => if h : VisitsPar par x then v (⟨x, h⟩, i) else 0

theorem vecOn_fieldOn (par : Parity) (v : ParIdx L N par → ℂ) : vecOn par (fieldOn par v) = v := by
  funext i
  unfold vecOn fieldOn
  rw [dif_pos i.1.2]

noncomputable instance [∀ d, NeZero (L d)] (par : Parity) : Fintype (ParIdx L N par) := by
  classical infer_instance

noncomputable instance (par : Parity) : DecidableEq (ParIdx L N par) := by
  classical infer_instance

theorem cdotOn_vec [∀ d, NeZero (L d)] (par : Parity) (chi psi : CField L N) : cdotOn par chi psi = star (vecOn par chi) ⬝ᵥ vecOn par psi := by
  classical
  unfold cdotOn dotProduct vecOn
  rw [Fintype.sum_prod_type]
  simp only [Pi.star_apply]
  rw [Finset.sum_ite, Finset.sum_const_zero, add_zero]
  rw [Finset.sum_subtype (p := fun x => VisitsPar par x) _ (fun x => by simp)]

theorem vec_ext [∀ d, NeZero (L d)] {par : Parity} {f g : CField L N} : vecOn par f = vecOn par g ↔ ∀ x, VisitsPar par x → f x = g x := by
  constructor
  · intro h x hx
    funext i
    exact congrFun h (⟨x, hx⟩, i)
  · intro h
    funext i
    exact congrFun (h i.1.1 i.1.2) i.2

/-- The matrix of an operator on the sites of its parity. -/
noncomputable def opMat (D : DiracOp L N) (U : GField L N) : Matrix (ParIdx L N D.par) (ParIdx L N D.par) ℂ :=
  Matrix.of fun i j => vecOn D.par (D.apply U (fieldOn D.par (Pi.single j 1))) i

theorem opMat_spec [∀ d, NeZero (L d)] {D : DiracOp L N} {U : GField L N} (h : DaggerIsAdjoint D U) :
    (∀ psi, vecOn D.par (D.apply U psi) = (opMat D U).mulVec (vecOn D.par psi)) ∧
    (∀ chi, vecOn D.par (D.dagger U chi) = (opMat D U)ᴴ.mulVec (vecOn D.par chi)) := by
  have h1 : ∀ (chi psi : CField L N), star (vecOn D.par chi) ⬝ᵥ vecOn D.par (D.apply U psi) = star (vecOn D.par (D.dagger U chi)) ⬝ᵥ vecOn D.par psi := by
    intro chi psi
    rw [← cdotOn_vec, ← cdotOn_vec]
    exact h chi psi
  have h2 : ∀ chi, vecOn D.par (D.dagger U chi) = (opMat D U)ᴴ.mulVec (vecOn D.par chi) := by
    intro chi
    funext j
    have h3 := h1 chi (fieldOn D.par (Pi.single j 1))
    rw [vecOn_fieldOn, dotProduct_single, mul_one] at h3
    have h4 : vecOn D.par (D.dagger U chi) j = star (star (vecOn D.par chi) ⬝ᵥ vecOn D.par (D.apply U (fieldOn D.par (Pi.single j 1)))) := by
      rw [h3, Pi.star_apply, star_star]
    rw [h4, star_dotProduct, star_star]
    unfold mulVec
    rfl
  refine ⟨fun psi => ?_, h2⟩
  funext i
  have h3 := h1 (fieldOn D.par (Pi.single i 1)) psi
  rw [h2, vecOn_fieldOn, ← dot_mulVec_star] at h3
  have h4 : star (Pi.single i (1 : ℂ) : ParIdx L N D.par → ℂ) = Pi.single i 1 := by
    funext k
    rw [Pi.star_apply]
    by_cases hk : k = i
    · subst hk; simp
    · simp [hk]
  rw [h4, single_dotProduct, one_mul, single_dotProduct, one_mul] at h3
  exact h3

/-! ### The derivative of the matrix -/

/-- What `force` says about the derivative of the matrix. -/
theorem opMat_deriv [∀ d, NeZero (L d)] {D : DiracOp L N} {U : ℝ → GField L N} {A : GField L N}
    (hadj : ∀ᶠ t in nhds 0, DaggerIsAdjoint D (U t)) (hF : ForceIsDerivative D U A) :
    ∃ K' : Matrix (ParIdx L N D.par) (ParIdx L N D.par) ℂ, KDeriv (fun t => opMat D (U t)) K' ∧
      (∀ chi psi, pairM A (U 0) (D.force (U 0) chi psi 1) = (star (vecOn D.par chi) ⬝ᵥ K'.mulVec (vecOn D.par psi)).re) ∧
      (∀ chi psi, pairM A (U 0) (D.force (U 0) chi psi (-1)) = (star (vecOn D.par chi) ⬝ᵥ K'ᴴ.mulVec (vecOn D.par psi)).re) := by
  have hex : ∀ i j, ∃ k : ℂ, HasDerivAt (fun t => opMat D (U t) i j) k 0 := by
    intro i j
    have hv : ∀ c : ℂ, ∀ t, (cdotOn D.par (fieldOn D.par (Pi.single i c)) (D.apply (U t) (fieldOn D.par (Pi.single j 1)))).re =
        (star c * opMat D (U t) i j).re := by
      intro c t
      rw [cdotOn_vec, vecOn_fieldOn]
      have h4 : star (Pi.single i c : ParIdx L N D.par → ℂ) = Pi.single i (star c) := by
        funext k
        rw [Pi.star_apply]
        by_cases hk : k = i
        · subst hk; simp
        · simp [hk]
      rw [h4, single_dotProduct]
      rfl
    have h1 := (hF (fieldOn D.par (Pi.single i 1)) (fieldOn D.par (Pi.single j 1))).1
    have h2 := (hF (fieldOn D.par (Pi.single i Complex.I)) (fieldOn D.par (Pi.single j 1))).1
    simp only [hv] at h1 h2
    have h3 := h1.ofReal_comp.add (h2.ofReal_comp.mul_const Complex.I)
    refine ⟨_, h3.congr_of_eventuallyEq (Filter.Eventually.of_forall fun t => ?_)⟩
    change opMat D (U t) i j = ((star (1 : ℂ) * opMat D (U t) i j).re : ℂ) + ((star Complex.I * opMat D (U t) i j).re : ℂ) * Complex.I
    apply Complex.ext <;> simp
  choose K' hK' using hex
  have hK : KDeriv (fun t => opMat D (U t)) (Matrix.of K') := hK'
  refine ⟨Matrix.of K', hK, fun chi psi => ?_, fun chi psi => ?_⟩
  · have h1 := (hF chi psi).1
    have h2 : HasDerivAt (fun t => (cdotOn D.par chi (D.apply (U t) psi)).re) (star (vecOn D.par chi) ⬝ᵥ (Matrix.of K').mulVec (vecOn D.par psi)).re 0 := by
      have h3 := (KDeriv.mulVec hK (v := fun _ => vecOn D.par psi) (v' := 0) fun i => hasDerivAt_const _ _)
      have h4 := VDeriv.dot (v := fun _ => vecOn D.par chi) (v' := 0) (fun i => hasDerivAt_const _ _) h3
      refine ((re_deriv h4).congr_of_eventuallyEq ?_).congr_deriv ?_
      · filter_upwards [hadj] with t ht
        rw [cdotOn_vec, (opMat_spec ht).1]
      · rw [star_zero, zero_dotProduct, zero_add, mulVec_zero, add_zero]
    exact h1.unique h2
  · have h1 := (hF chi psi).2
    have h2 : HasDerivAt (fun t => (cdotOn D.par chi (D.dagger (U t) psi)).re) (star (vecOn D.par chi) ⬝ᵥ (Matrix.of K')ᴴ.mulVec (vecOn D.par psi)).re 0 := by
      have h3 := (KDeriv.mulVec hK.star (v := fun _ => vecOn D.par psi) (v' := 0) fun i => hasDerivAt_const _ _)
      have h4 := VDeriv.dot (v := fun _ => vecOn D.par chi) (v' := 0) (fun i => hasDerivAt_const _ _) h3
      refine ((re_deriv h4).congr_of_eventuallyEq ?_).congr_deriv ?_
      · filter_upwards [hadj] with t ht
        rw [cdotOn_vec, (opMat_spec ht).2]
      · rw [star_zero, zero_dotProduct, zero_add, mulVec_zero, add_zero]
    exact h1.unique h2

/-- The projection does not change the derivative. -/
theorem projAnti_trace {A : Mat N} (hA : Aᴴ = -A) (hA0 : A.trace = 0) (F : Mat N) : (A * projAnti F).trace.re = (A * F).trace.re := by
  unfold projAnti
  dsimp only
  rw [Matrix.mul_sub, Matrix.trace_sub, Matrix.mul_smul, Matrix.mul_smul, Matrix.trace_smul, Matrix.trace_smul, Matrix.mul_one, hA0, smul_zero, sub_zero,
    Matrix.mul_sub, Matrix.trace_sub]
  have h : (A * Fᴴ).trace = -star (A * F).trace := by
    have h1 : star (A * F).trace = ((A * F)ᴴ).trace := (trace_conjTranspose _).symm
    rw [h1, conjTranspose_mul, hA, Matrix.mul_neg, Matrix.trace_neg, neg_neg, Matrix.trace_mul_comm]
  rw [h, smul_eq_mul, sub_neg_eq_add]
  have h2 : ((1 / 2 : ℂ)) = ((1 / 2 : ℝ) : ℂ) := by norm_num
  rw [h2, Complex.re_ofReal_mul, Complex.add_re]
  have h3 : (star (A * F).trace).re = (A * F).trace.re := Complex.conj_re _
  rw [h3]
  ring

/-- The change of the momentum in `add_momentum`. -/
theorem projAnti_algebra (hN : 0 < N) (F : Mat N) : (projAnti F)ᴴ = -projAnti F ∧ (projAnti F).trace = 0 := by
  have hN' : (N : ℂ) ≠ 0 := Nat.cast_ne_zero.2 hN.ne'
  have hstar : star (F - Fᴴ).trace = -(F - Fᴴ).trace := by
    rw [← Matrix.trace_conjTranspose, Matrix.conjTranspose_sub, Matrix.conjTranspose_conjTranspose, ← Matrix.trace_neg, neg_sub]
  unfold projAnti
  dsimp only
  constructor
  · have h2 : star (1 / 2 : ℂ) = 1 / 2 := by simp
    have h3 : star (N : ℂ) = N := by simp
    have h4 : star (1 / 2 * (F - Fᴴ).trace / (N : ℂ)) = 1 / 2 * -(F - Fᴴ).trace / (N : ℂ) := by rw [star_div₀, star_mul', hstar, h2, h3]
    rw [Matrix.trace_smul, smul_eq_mul, Matrix.conjTranspose_sub, Matrix.conjTranspose_smul, Matrix.conjTranspose_smul, Matrix.conjTranspose_one,
      Matrix.conjTranspose_sub, Matrix.conjTranspose_conjTranspose, h2, h4, ← neg_sub F Fᴴ, smul_neg, mul_neg, neg_div, neg_smul]
    abel
  · rw [Matrix.trace_sub, Matrix.trace_smul _ (1 : Mat N), Matrix.trace_one, Fintype.card_fin, smul_eq_mul, div_mul_cancel₀ _ hN', sub_self]

theorem addMomentum_algebra [∀ d, NeZero (L d)] (hN : 0 < N) (U : GField L N) {P : GField L N} (hP : ∀ d x, (P d x)ᴴ = -P d x ∧ (P d x).trace = 0)
    (F : GField L N) (d : Fin n) (x : PSite L) : (addMomentum U P F d x)ᴴ = -addMomentum U P F d x ∧ (addMomentum U P F d x).trace = 0 := by
  unfold addMomentum
  rw [Matrix.conjTranspose_add, (hP d x).1, (projAnti_algebra hN _).1, Matrix.trace_add, (hP d x).2, (projAnti_algebra hN _).2]
  exact ⟨by abel, add_zero _⟩

theorem addMomentum_pair [∀ d, NeZero (L d)] {A : GField L N} (hA : ∀ d x, (A d x)ᴴ = -A d x ∧ (A d x).trace = 0) (U P F : GField L N) (eps : ℝ) :
    ∑ d, ∑ x, (A d x * (addMomentum U P (fun d x => ((eps : ℝ) : ℂ) • F d x) d x - P d x)).trace.re = eps * pairM A U F := by
  unfold pairM addMomentum
  rw [Finset.mul_sum]
  refine Finset.sum_congr rfl fun d _ => ?_
  rw [Finset.mul_sum]
  refine Finset.sum_congr rfl fun x _ => ?_
  rw [add_sub_cancel_left, projAnti_trace (hA d x).1 (hA d x).2, Matrix.mul_smul, Matrix.mul_smul, Matrix.trace_smul, smul_eq_mul, Complex.re_ofReal_mul,
    Matrix.mul_assoc]

theorem pairM_add [∀ d, NeZero (L d)] (A U F G : GField L N) : pairM A U (fun d x => F d x + G d x) = pairM A U F + pairM A U G := by
  unfold pairM
  rw [← Finset.sum_add_distrib]
  refine Finset.sum_congr rfl fun d _ => ?_
  rw [← Finset.sum_add_distrib]
  refine Finset.sum_congr rfl fun x _ => ?_
  rw [Matrix.mul_add, Matrix.trace_add, Complex.add_re]

end Hila
