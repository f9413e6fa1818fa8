import Verif.Lemmas.Fermion
import Verif.Props.Force

/-!
# C67: pseudofermion actions and their forces

libraries/hmc/fermion_field.h, Hasenbusch.h and the gauge action of hmc/gauge_field.h, for every operator with an adjoint and a force in
the sense of `DaggerIsAdjoint` and `ForceIsDerivative` (`Props/Stagg`), with a solver that solves the linear system exactly.
-/

namespace Hila

open Matrix

variable {n : ℕ} {L : Fin n → ℕ} {N : ℕ}

/-- `solve` solves the system `D† D v = b` on the sites of the operator. -/
def IsSolver [∀ d, NeZero (L d)] (D : DiracOp L N) (solve : GField L N → CField L N → CField L N) (U : GField L N) : Prop :=
  ∀ b x, VisitsPar D.par x → D.dagger U (D.apply U (solve U b)) x = b x

/-- The change `P' - P` of the momentum along `A`. -/
noncomputable def momChange [∀ d, NeZero (L d)] (A P P' : GField L N) : ℝ := ∑ d, ∑ x, (A d x * (P' d x - P d x)).trace.re

section
variable [∀ d, NeZero (L d)] {D : DiracOp L N} {solve : GField L N → CField L N → CField L N} {U : GField L N}

theorem solver_vec (hadj : DaggerIsAdjoint D U) (hs : IsSolver D solve U) (b : CField L N) :
    ((opMat D U)ᴴ * opMat D U).mulVec (vecOn D.par (solve U b)) = vecOn D.par b := by
  rw [← mulVec_mulVec, ← (opMat_spec hadj).1, ← (opMat_spec hadj).2]
  exact vec_ext.2 fun x hx => hs b x hx

theorem solver_det (hadj : DaggerIsAdjoint D U) (hs : IsSolver D solve U) : ((opMat D U)ᴴ * opMat D U).det ≠ 0 := by
  refine det_of_solve fun b => ⟨vecOn D.par (solve U (fieldOn D.par b)), ?_⟩
  rw [solver_vec hadj hs, vecOn_fieldOn]

/-- If `D† D v = D† f` then `D v = f`. -/
theorem solver_cancel (hadj : DaggerIsAdjoint D U) (hs : IsSolver D solve U) (b : CField L N) (f : ParIdx L N D.par → ℂ)
    (hb : vecOn D.par b = (opMat D U)ᴴ.mulVec f) : (opMat D U).mulVec (vecOn D.par (solve U b)) = f := by
  have h1 := solver_vec hadj hs b
  have hd := solver_det hadj hs
  rw [hb, ← mulVec_mulVec] at h1
  have h2 : ((opMat D U)ᴴ).det ≠ 0 := by
    rw [det_mul] at hd
    exact left_ne_zero_of_mul hd
  exact mulVec_injective_of_isUnit ((isUnit_iff_isUnit_det _).2 (Ne.isUnit h2)) h1

theorem sqOn_vec (par : Parity) (f : CField L N) : sqOn par f = (star (vecOn par f) ⬝ᵥ vecOn par f).re := by
  rw [← cdotOn_vec, ← rdotOn_eq]
  unfold sqOn rdotOn
  refine Finset.sum_congr rfl fun x _ => ?_
  split_ifs
  · rw [Complex.re_sum]
    refine Finset.sum_congr rfl fun i _ => ?_
    simp [Complex.normSq_apply]
  · rfl

theorem hasen_adj (hadj : DaggerIsAdjoint D U) (h : ℝ) : DaggerIsAdjoint (hasenbuschOp D h) U := by
  intro chi psi
  have e3 : ∀ r : ℝ, star (r : ℂ) = r := fun r => Complex.conj_ofReal r
  change cdotOn D.par chi _ = cdotOn D.par _ psi
  have h1 : cdotOn D.par chi ((hasenbuschOp D h).apply U psi) = cdotOn D.par chi (D.apply U psi) + (h : ℂ) * cdotOn D.par chi psi := by
    rw [← cdotOn_smul, ← cdotOn_add]
    exact cdotOn_congr (fun x _ => rfl) fun x hx => if_pos hx
  have h2 : cdotOn D.par ((hasenbuschOp D h).dagger U chi) psi = cdotOn D.par (D.dagger U chi) psi + (h : ℂ) * cdotOn D.par chi psi := by
    rw [← e3 h, ← cdotOn_smul_left, ← cdotOn_add_left]
    exact cdotOn_congr (fun x hx => if_pos hx) fun x _ => rfl
  rw [h1, h2, hadj]

theorem hasen_dagger_vec (hadj : DaggerIsAdjoint D U) (h : ℝ) (chi : CField L N) :
    vecOn D.par ((hasenbuschOp D h).dagger U chi) = (opMat D U)ᴴ.mulVec (vecOn D.par chi) + (h : ℂ) • vecOn D.par chi := by
  rw [← (opMat_spec hadj).2]
  funext i
  change (if VisitsPar D.par i.1.1 then D.dagger U chi i.1.1 + (h : ℂ) • chi i.1.1 else D.dagger U chi i.1.1) i.2 = _
  rw [if_pos i.1.2]
  rfl

end

/-- C67. Adding a mass (`Hasenbusch_operator`) keeps the properties of an operator: adjoint and force. -/
theorem C67_hasenbusch [∀ d, NeZero (L d)] {D : DiracOp L N} {U : ℝ → GField L N} {A : GField L N} (h : ℝ)
    (hadj : DaggerIsAdjoint D (U 0)) (hF : ForceIsDerivative D U A) :
    DaggerIsAdjoint (hasenbuschOp D h) (U 0) ∧ ForceIsDerivative (hasenbuschOp D h) U A := by
  refine ⟨hasen_adj hadj h, fun chi psi => ⟨?_, ?_⟩⟩
  · have h1 : ∀ t, (cdotOn D.par chi ((hasenbuschOp D h).apply (U t) psi)).re = (cdotOn D.par chi (D.apply (U t) psi)).re + ((h : ℂ) * cdotOn D.par chi psi).re := by
      intro t
      rw [← Complex.add_re, ← cdotOn_smul, ← cdotOn_add]
      congr 1
      exact cdotOn_congr (fun x _ => rfl) fun x hx => if_pos hx
    change HasDerivAt (fun t => (cdotOn D.par chi ((hasenbuschOp D h).apply (U t) psi)).re) _ 0
    simp only [h1]
    exact ((hF chi psi).1).add_const _
  · have h1 : ∀ t, (cdotOn D.par chi ((hasenbuschOp D h).dagger (U t) psi)).re = (cdotOn D.par chi (D.dagger (U t) psi)).re + ((h : ℂ) * cdotOn D.par chi psi).re := by
      intro t
      rw [← Complex.add_re, ← cdotOn_smul, ← cdotOn_add]
      congr 1
      exact cdotOn_congr (fun x _ => rfl) fun x hx => if_pos hx
    change HasDerivAt (fun t => (cdotOn D.par chi ((hasenbuschOp D h).dagger (U t) psi)).re) _ 0
    simp only [h1]
    exact ((hF chi psi).2).add_const _

/-- C67. With the pseudofermion field that `draw_gaussian_fields` makes from random numbers `psi`, the action is the sum of the squares of
these numbers: the field has the distribution `exp(-S)`. -/
theorem C67_draw [∀ d, NeZero (L d)] {D : DiracOp L N} {solve : GField L N → CField L N → CField L N} {U : GField L N}
    (hadj : DaggerIsAdjoint D U) (hs : IsSolver D solve U) (psi : CField L N) :
    fermionAction D solve U (fermionDraw D U psi) = ∑ x, if VisitsPar D.par x then ∑ i, Complex.normSq (psi x i) else 0 := by
  change fermionAction D solve U (D.dagger U psi) = sqOn D.par psi
  unfold fermionAction
  rw [rdotOn_eq, cdotOn_vec, sqOn_vec, (opMat_spec hadj).2, ← dot_mulVec_star, solver_cancel hadj hs _ _ ((opMat_spec hadj).2 psi)]

/-- C67. The force of the pseudofermion action is its gradient: if the links change according to `U' = A U` with `A` in the algebra, then
`Re tr(A ΔP)`, for the change `ΔP` of the momentum in `force_step(eps)`, is `eps` times the derivative of the action. -/
theorem C67_force [∀ d, NeZero (L d)] {D : DiracOp L N} {solve : GField L N → CField L N → CField L N} {U : ℝ → GField L N} {A : GField L N}
    (hadj : ∀ᶠ t in nhds 0, DaggerIsAdjoint D (U t)) (hF : ForceIsDerivative D U A) (hs : ∀ᶠ t in nhds 0, IsSolver D solve (U t))
    (hA : ∀ d x, (A d x)ᴴ = -A d x ∧ (A d x).trace = 0) (chi : CField L N) (P : GField L N) (eps : ℝ) :
    ∃ S' : ℝ, HasDerivAt (fun t => fermionAction D solve (U t) chi) S' 0 ∧
      momChange A P (fermionForceStep D solve (U 0) P chi eps) = eps * S' := by
  obtain ⟨K', hK, hf1, hf2⟩ := opMat_deriv hadj hF
  have hv : ∀ᶠ t in nhds 0, ((opMat D (U t))ᴴ * opMat D (U t)).mulVec (vecOn D.par (solve (U t) chi)) = vecOn D.par chi := by
    filter_upwards [hadj, hs] with t h1 h2
    exact solver_vec h1 h2 chi
  have h := normal_deriv hK (b := fun _ => vecOn D.par chi) (b' := 0) (fun i => hasDerivAt_const _ _) (solver_det hadj.self_of_nhds hs.self_of_nhds) hv
  have he : (fun t => fermionAction D solve (U t) chi) = fun t => (star (vecOn D.par chi) ⬝ᵥ vecOn D.par (solve (U t) chi)).re := by
    funext t
    unfold fermionAction
    rw [rdotOn_eq, cdotOn_vec]
  refine ⟨_, by rw [he]; exact h, ?_⟩
  unfold momChange fermionForceStep
  rw [addMomentum_pair hA, pairM_add, hf1, hf2, (opMat_spec hadj.self_of_nhds).1, star_zero, zero_dotProduct, dotProduct_zero]
  simp only [Complex.zero_re]
  ring

/-- C67. The action of the second Hasenbusch field with the field that `draw_gaussian_fields` makes is again the sum of the squares of the
random numbers. -/
theorem C67_hasen_draw [∀ d, NeZero (L d)] {D : DiracOp L N} {mh : ℝ} {solve solveH : GField L N → CField L N → CField L N} {U : GField L N}
    (hadj : DaggerIsAdjoint D U) (hs : IsSolver D solve U) (hsH : IsSolver (hasenbuschOp D mh) solveH U) (psi : CField L N) :
    hasen2Action D mh solve U (hasen2Draw D mh solveH U psi) = ∑ x, if VisitsPar D.par x then ∑ i, Complex.normSq (psi x i) else 0 := by
  change hasen2Action D mh solve U (hasen2Draw D mh solveH U psi) = sqOn D.par psi
  let psi0 : CField L N := fun x => if VisitsPar D.par x then psi x else 0
  have e0 : vecOn D.par psi0 = vecOn D.par psi := vec_ext.2 fun x hx => if_pos hx
  have e1 : vecOn D.par ((hasenbuschOp D mh).dagger U (hasen2Draw D mh solveH U psi)) = (opMat D U)ᴴ.mulVec (vecOn D.par psi) := by
    rw [← e0, ← (opMat_spec hadj).2]
    exact vec_ext.2 fun x hx => hsH (D.dagger U psi0) x hx
  unfold hasen2Action
  dsimp only
  rw [sqOn_vec, (opMat_spec hadj).1, solver_cancel hadj hs _ _ e1, ← sqOn_vec]

/-- C67. A force step leaves the momentum in the algebra: if it is antihermitean without trace before, so it is after the step of the
pseudofermion action, of the second Hasenbusch action and of the gauge action, for any links and any solution of the linear system. -/
theorem C67_algebra [∀ d, NeZero (L d)] (hN : 0 < N) (D : DiracOp L N) (solve : GField L N → CField L N → CField L N) (U P : GField L N)
    (chi : CField L N) (mh beta eps : ℝ) (hP : ∀ d x, (P d x)ᴴ = -P d x ∧ (P d x).trace = 0) (d : Fin n) (x : PSite L) :
    ((fermionForceStep D solve U P chi eps d x)ᴴ = -fermionForceStep D solve U P chi eps d x ∧
      (fermionForceStep D solve U P chi eps d x).trace = 0) ∧
    ((hasen2ForceStep D mh solve U P chi eps d x)ᴴ = -hasen2ForceStep D mh solve U P chi eps d x ∧
      (hasen2ForceStep D mh solve U P chi eps d x).trace = 0) ∧
    ((gaugeActionForceStep beta U P eps d x)ᴴ = -gaugeActionForceStep beta U P eps d x ∧
      (gaugeActionForceStep beta U P eps d x).trace = 0) :=
by
  unfold fermionForceStep hasen2ForceStep gaugeActionForceStep
  refine ⟨?_, ?_, ?_⟩
  · exact addMomentum_algebra hN U hP _ d x
  · exact addMomentum_algebra hN U hP _ d x
  · exact addMomentum_algebra hN U hP _ d x

/-- Zero momenta satisfy the hypothesis. -/
example : ∀ (d : Fin 4) (x : PSite (fun _ : Fin 4 => 4)), (((0 : GField (fun _ : Fin 4 => 4) 3) d x)ᴴ = -(0 : GField (fun _ : Fin 4 => 4) 3) d x ∧
    ((0 : GField (fun _ : Fin 4 => 4) 3) d x).trace = 0) := fun d x => by simp

/-- C67. The force of the second Hasenbusch action is its gradient. -/
theorem C67_hasen_force [∀ d, NeZero (L d)] {D : DiracOp L N} {mh : ℝ} {solve : GField L N → CField L N → CField L N} {U : ℝ → GField L N}
    {A : GField L N} (hadj : ∀ᶠ t in nhds 0, DaggerIsAdjoint D (U t)) (hF : ForceIsDerivative D U A)
    (hs : ∀ᶠ t in nhds 0, IsSolver D solve (U t)) (hA : ∀ d x, (A d x)ᴴ = -A d x ∧ (A d x).trace = 0) (chi : CField L N) (P : GField L N)
    (eps : ℝ) :
    ∃ S' : ℝ, HasDerivAt (fun t => hasen2Action D mh solve (U t) chi) S' 0 ∧
      momChange A P (hasen2ForceStep D mh solve (U 0) P chi eps) = eps * S' := by
  obtain ⟨K', hK, hf1, hf2⟩ := opMat_deriv hadj hF
  let b : ℝ → ParIdx L N D.par → ℂ := fun t => (opMat D (U t))ᴴ.mulVec (vecOn D.par chi) + (mh : ℂ) • vecOn D.par chi
  let v : ℝ → ParIdx L N D.par → ℂ := fun t => vecOn D.par (solve (U t) ((hasenbuschOp D mh).dagger (U t) chi))
  have hb : VDeriv b (K'ᴴ.mulVec (vecOn D.par chi)) := by
    intro i
    have h1 := KDeriv.mulVec hK.star (v := fun _ => vecOn D.par chi) (v' := 0) (fun i => hasDerivAt_const _ _) i
    rw [mulVec_zero, add_zero] at h1
    exact h1.add_const _
  have hv : ∀ᶠ t in nhds 0, ((opMat D (U t))ᴴ * opMat D (U t)).mulVec (v t) = b t := by
    filter_upwards [hadj, hs] with t h1 h2
    rw [solver_vec h1 h2, hasen_dagger_vec h1]
  have h := normal_deriv hK hb (solver_det hadj.self_of_nhds hs.self_of_nhds) hv
  have he : (fun t => hasen2Action D mh solve (U t) chi) =ᶠ[nhds 0] fun t => (star (b t) ⬝ᵥ v t).re := by
    filter_upwards [hadj, hv] with t h1 h2
    unfold hasen2Action
    dsimp only
    rw [sqOn_vec, (opMat_spec h1).1]
    change (star ((opMat D (U t)).mulVec (v t)) ⬝ᵥ (opMat D (U t)).mulVec (v t)).re = _
    rw [dot_mulVec_star, mulVec_mulVec, h2]
  refine ⟨_, h.congr_of_eventuallyEq he, ?_⟩
  unfold momChange hasen2ForceStep
  have e1 : vecOn D.par (assignOn D.par (D.apply (U 0) (solve (U 0) ((hasenbuschOp D mh).dagger (U 0) chi))) fun x =>
      D.apply (U 0) (solve (U 0) ((hasenbuschOp D mh).dagger (U 0) chi)) x - chi x) = (opMat D (U 0)).mulVec (v 0) - vecOn D.par chi := by
    rw [← (opMat_spec hadj.self_of_nhds).1]
    funext i
    unfold vecOn assignOn
    rw [if_pos i.1.2]
    rfl
  rw [addMomentum_pair hA, pairM_add, hf1, hf2, e1, star_sub, sub_dotProduct, mulVec_sub, dotProduct_sub]
  have e2 : (star (K'ᴴ.mulVec (vecOn D.par chi)) ⬝ᵥ v 0).re = (star (vecOn D.par chi) ⬝ᵥ K'.mulVec (v 0)).re := by rw [dot_mulVec_star]
  rw [e2]
  simp only [Complex.sub_re]
  change -eps * ((star ((opMat D (U 0)).mulVec (v 0)) ⬝ᵥ K'.mulVec (v 0)).re - (star (vecOn D.par chi) ⬝ᵥ K'.mulVec (v 0)).re +
    ((star (v 0) ⬝ᵥ K'ᴴ.mulVec ((opMat D (U 0)).mulVec (v 0))).re - (star (v 0) ⬝ᵥ K'ᴴ.mulVec (vecOn D.par chi)).re)) = _
  ring

/-- C67. The local action `action(Field &S)` of the fermion action sums to `action()`. -/
theorem C67_action_field [∀ d, NeZero (L d)] (D : DiracOp L N) (solve : GField L N → CField L N → CField L N) (U : GField L N) (chi : CField L N) :
    ∑ x, fermionActionField D solve U chi x = fermionAction D solve U chi := rfl

/-- C67. The force of the gauge action is its gradient, with the same convention as the fermion forces. -/
theorem C67_gauge_force [∀ d, NeZero (L d)] (hN : 0 < N) (hn : 2 ≤ n) {U : ℝ → GField L N} {A : GField L N} (hU : LinkCurve U A)
    (hA : ∀ d x, (A d x)ᴴ = -A d x ∧ (A d x).trace = 0) (beta eps : ℝ) (P : GField L N) :
    ∃ S' : ℝ, HasDerivAt (fun t => gaugeActionVal beta (U t)) S' 0 ∧
      momChange A P (gaugeActionForceStep beta (U 0) P eps) = eps * S' := by
  have e : ∀ t, gaugeActionVal beta (U t) = beta * measureSWplaq (U t) := by
    intro t
    unfold gaugeActionVal
    rw [(C33_plaquette_same (U t)).2, (C33_plaquette_same (U t)).1]
  refine ⟨_, by simp only [e]; exact (wplaq_deriv hN hU).const_mul beta, ?_⟩
  unfold momChange gaugeActionForceStep
  rw [addMomentum_pair hA]
  unfold pairM
  have e2 : ∀ d x, A d x * U 0 d x * calcStaples (U 0) d x = A d x * (U 0 d x * (stapleSpec (fun _ _ => 1) (U 0) d x)ᴴ) := by
    intro d x
    rw [(C33_reversed_staples hn (U 0) (fun _ => none) d x).2, Matrix.mul_assoc]
  simp only [e2]
  ring

/-- C67, the property does not hold for the local action of the second Hasenbusch field: on every lattice, with unit links, mass 1 and
Hasenbusch mass 1 there is a field whose local action (fermion_field.h:275-289: conjugate of `D` instead of `D_h`, even sites only) does not
sum to the action, with every exact solver. -/
theorem C67_hasen_field_wrong [∀ d, NeZero (L d)] (hN : 0 < N) (tmp : Fin n → CField L N) (solve : GField L N → CField L N → CField L N)
    (hs : IsSolver (diracStaggered (fun _ => false) tmp 1) solve fun _ _ => 1) :
    ∃ chi : CField L N, ∑ x, hasen2ActionField (diracStaggered (fun _ => false) tmp 1) solve (fun _ _ => 1) chi x ≠
      hasen2Action (diracStaggered (fun _ => false) tmp 1) 1 solve (fun _ _ => 1) chi := by
  have hhop : ∀ c : ℂ, hopAt (fun _ => false) (fun _ _ => 1) (fun _ _ => c : CField L N) = 0 := by
    intro c
    funext x
    rw [hopAt_free]
    refine Finset.sum_eq_zero fun d _ => ?_
    have : diffD (fun _ => false) d (fun _ _ => c : CField L N) x = 0 := by simp [diffD, bcSign]
    rw [this, smul_zero]
  have hap : ∀ c : ℂ, (diracStaggered (fun _ => false) tmp 1).apply (fun _ _ => 1) (fun _ _ => c : CField L N) = fun _ _ => c := by
    intro c
    funext x
    rw [stag_apply, hhop]
    funext i
    simp
  have hda : ∀ c : ℂ, (diracStaggered (fun _ => false) tmp 1).dagger (fun _ _ => 1) (fun _ _ => c : CField L N) = fun _ _ => c := by
    intro c
    funext x
    rw [stag_dagger, hhop]
    funext i
    simp
  have hsol : ∀ c : ℂ, solve (fun _ _ => 1) (fun _ _ => c : CField L N) = fun _ _ => c := by
    intro c
    have hb := (C66_normal (fun _ => false) tmp 1 (fun _ _ => (1 : Mat N))).2.2 one_ne_zero
    refine hb.1.1 (hb.2.1 ?_)
    funext x
    rw [hs _ x trivial, hap, hda]
  refine ⟨fun _ _ => 1, ?_⟩
  have h1 : hasen2Action (diracStaggered (fun _ => false) tmp 1) 1 solve (fun _ _ => 1) (fun _ _ => 1 : CField L N) = ∑ _x : PSite L, (4 * N : ℝ) := by
    unfold hasen2Action
    have e : (hasenbuschOp (diracStaggered (fun _ => false) tmp 1) 1).dagger (fun _ _ => 1) (fun _ _ => 1 : CField L N) = fun _ _ => 2 := by
      funext x i
      have e5 : (hasenbuschOp (diracStaggered (fun _ => false) tmp 1) 1).dagger (fun _ _ => 1) (fun _ _ => 1 : CField L N) x =
          (diracStaggered (fun _ => false) tmp 1).dagger (fun _ _ => 1) (fun _ _ => 1 : CField L N) x + ((1 : ℝ) : ℂ) • fun _ => 1 := by
        unfold hasenbuschOp assignOn
        dsimp only
        rw [if_pos (show VisitsPar (diracStaggered (fun _ => false) tmp 1).par x from trivial)]
      rw [e5, hda]
      simp only [Pi.add_apply, Pi.smul_apply, smul_eq_mul]
      norm_num
    dsimp only
    rw [e, hsol, hap]
    unfold sqOn
    refine Finset.sum_congr rfl fun x _ => ?_
    rw [if_pos (show VisitsPar (diracStaggered (fun _ => false) tmp 1).par x from trivial), Finset.sum_const, Finset.card_univ, Fintype.card_fin, nsmul_eq_mul]
    have : Complex.normSq 2 = 4 := by simp [Complex.normSq_apply]; norm_num
    rw [this]
    ring
  have h2 : ∑ x, hasen2ActionField (diracStaggered (fun _ => false) tmp 1) solve (fun _ _ => 1) (fun _ _ => 1 : CField L N) x ≤ ∑ _x : PSite L, (N : ℝ) := by
    refine Finset.sum_le_sum fun x _ => ?_
    unfold hasen2ActionField
    rw [hda, hsol, hap]
    split_ifs
    · simp
    · positivity
  have h3 : (∑ _x : PSite L, (N : ℝ)) < ∑ _x : PSite L, (4 * N : ℝ) := by
    refine Finset.sum_lt_sum_of_nonempty ⟨0, Finset.mem_univ _⟩ fun x _ => ?_
    have : (0 : ℝ) < N := by exact_mod_cast hN
    linarith
  rw [h1]
  exact ne_of_lt (lt_of_le_of_lt h2 h3)

/-- The hypotheses of the theorems for the staggered operator with a mass: it has an adjoint and a force and there is an exact solver, on
every curve of links. -/
example [∀ d, NeZero (L d)] (bc : Fin n → Bool) (tmp : Fin n → CField L N) (mass : ℝ) (hm : mass ≠ 0) (V A : GField L N) :
    ∃ (U : ℝ → GField L N) (solve : GField L N → CField L N → CField L N), LinkCurve U A ∧
      (∀ t, DaggerIsAdjoint (diracStaggered bc tmp mass) (U t)) ∧ ForceIsDerivative (diracStaggered bc tmp mass) U A ∧
      ∀ t, IsSolver (diracStaggered bc tmp mass) solve (U t) := by
  have hb : ∀ U : GField L N, ∃ s : CField L N → CField L N, ∀ b, (diracStaggered bc tmp mass).dagger U ((diracStaggered bc tmp mass).apply U (s b)) = b := by
    intro U
    have h := (C66_normal bc tmp mass U).2.2 hm
    exact ⟨fun b => ((h.2.comp h.1).2 b).choose, fun b => ((h.2.comp h.1).2 b).choose_spec⟩
  choose s hs using hb
  exact ⟨_, s, exp_curve V A, fun t => stag_adjoint bc tmp mass _, C66_force bc tmp mass (exp_curve V A), fun t b x _ => by rw [hs]⟩

/-- A curve in the algebra. -/
example : ∃ A : Mat 2, Aᴴ = -A ∧ A.trace = 0 ∧ A ≠ 0 := by
  refine ⟨!![Complex.I, 0; 0, -Complex.I], ?_, ?_, ?_⟩
  · ext i j
    fin_cases i <;> fin_cases j <;> simp
  · simp [Matrix.trace, Fin.sum_univ_two]
  · intro h
    have := congrFun (congrFun h 0) 0
    simp at this

end Hila
