import Verif.Lemmas.Stagg
import Mathlib.LinearAlgebra.FiniteDimensional.Lemmas

/-!
# C66: the staggered Dirac operator

The operator of libraries/dirac/staggered.h on a lattice of any size and dimension, with periodic and antiperiodic boundary conditions.
-/

namespace Hila

open Matrix

variable {n : ℕ} {L : Fin n → ℕ} {N : ℕ}

/-! ### Specification -/

/-- The neighbour `ψ(x + d)`, with the sign of the boundary condition. -/
def nbrUp (bc : Fin n → Bool) (psi : CField L N) (d : Fin n) (x : PSite L) : Fin N → ℂ :=
  if bc d = true ∧ (x d).val + 1 = L d then -psi (x + Pi.single d 1) else psi (x + Pi.single d 1)

/-- The neighbour `U†(x-d) ψ(x - d)`, with the sign of the boundary condition. -/
noncomputable def nbrDown (bc : Fin n → Bool) (U : GField L N) (psi : CField L N) (d : Fin n) (x : PSite L) : Fin N → ℂ :=
  let v := ((U d (x - Pi.single d 1))ᴴ).mulVec (psi (x - Pi.single d 1))
  if bc d = true ∧ (x d).val = 0 then -v else v

/-- The staggered difference `½ Σ_d (-1)^{x_0 + ... + x_{d-1}} (U_d(x) ψ(x+d) - U_d†(x-d) ψ(x-d))`. -/
noncomputable def stagDiff (bc : Fin n → Bool) (U : GField L N) (psi : CField L N) (x : PSite L) : Fin N → ℂ :=
  ∑ d, ((1 / 2 : ℂ) * (-1) ^ (∑ e, if e < d then (x e).val else 0)) • ((U d x).mulVec (nbrUp bc psi d x) - nbrDown bc U psi d x)

theorem hopAt_spec [∀ d, NeZero (L d)] (bc : Fin n → Bool) (U : GField L N) (psi : CField L N) (x : PSite L) :
    hopAt bc U psi x = -stagDiff bc U psi x := by
  unfold hopAt stagDiff
  rw [← Finset.sum_neg_distrib]
  refine Finset.sum_congr rfl fun d _ => ?_
  have h1 : nbrUp bc psi d x = bcSign bc d x • psi (x + unitStep d) := (fwdBc_eq bc psi d x)
  have h2 : nbrDown bc U psi d x = bcSign bc d (x - unitStep d) • ((U d (x - unitStep d))ᴴ).mulVec (psi (x - unitStep d)) :=
    (bwdBc_eq bc (fun y => ((U d y)ᴴ).mulVec (psi y)) d x)
  rw [h1, h2, mulVec_smul, stagEta_eq, ← neg_smul]
  congr 1
  unfold coordsBelow
  push_cast
  norm_num

theorem stag_apply [∀ d, NeZero (L d)] (bc : Fin n → Bool) (tmp : Fin n → CField L N) (mass : ℝ) (U : GField L N) (psi : CField L N) (x : PSite L) :
    (diracStaggered bc tmp mass).apply U psi x = (mass : ℂ) • psi x + hopAt bc U psi x := by
  change stagHop bc tmp U psi (stagDiag mass psi (fun _ => 0) .all) .all 1 x = _
  rw [stagHop_eq (Or.inl rfl), if_pos (show VisitsPar .all x from trivial)]
  unfold stagDiag assignOn
  rw [if_pos (show VisitsPar .all x from trivial)]
  simp

theorem stag_dagger [∀ d, NeZero (L d)] (bc : Fin n → Bool) (tmp : Fin n → CField L N) (mass : ℝ) (U : GField L N) (psi : CField L N) (x : PSite L) :
    (diracStaggered bc tmp mass).dagger U psi x = (mass : ℂ) • psi x - hopAt bc U psi x := by
  change stagHop bc tmp U psi (stagDiag mass psi (fun _ => 0) .all) .all (-1) x = _
  rw [stagHop_eq (Or.inl rfl), if_pos (show VisitsPar .all x from trivial)]
  unfold stagDiag assignOn
  rw [if_pos (show VisitsPar .all x from trivial)]
  simp [sub_eq_add_neg]

/-- C66. The operator is `m - Δ` with the staggered difference `Δ`, its conjugate `m + Δ`, whatever the temporary fields contain. (The
comment at staggered.h:22-25 gives the phases with the other sign.) -/
theorem C66_operator [∀ d, NeZero (L d)] (bc : Fin n → Bool) (tmp : Fin n → CField L N) (mass : ℝ) (U : GField L N) (psi : CField L N) (x : PSite L) :
    (diracStaggered bc tmp mass).apply U psi x = (mass : ℂ) • psi x - stagDiff bc U psi x ∧
    (diracStaggered bc tmp mass).dagger U psi x = (mass : ℂ) • psi x + stagDiff bc U psi x := by
  rw [stag_apply, stag_dagger, hopAt_spec, sub_neg_eq_add, ← sub_eq_add_neg]
  exact ⟨rfl, rfl⟩

/-- C66. `dagger` is the adjoint of `apply`. -/
theorem C66_adjoint [∀ d, NeZero (L d)] (bc : Fin n → Bool) (tmp tmp' : Fin n → CField L N) (mass : ℝ) (U : GField L N) (chi psi : CField L N) :
    ∑ x, star (chi x) ⬝ᵥ (diracStaggered bc tmp mass).apply U psi x = ∑ x, star ((diracStaggered bc tmp' mass).dagger U chi x) ⬝ᵥ psi x := by
  simp only [stag_apply, stag_dagger, dotProduct_add, star_sub, sub_dotProduct, Finset.sum_add_distrib, Finset.sum_sub_distrib]
  rw [hopAt_anti, sub_eq_add_neg]
  congr 1
  refine Finset.sum_congr rfl fun x _ => ?_
  rw [dotProduct_smul, star_smul, smul_dotProduct]
  congr 1
  exact (Complex.conj_ofReal mass).symm

/-- C66. The operator is gauge covariant. -/
theorem C66_gauge [∀ d, NeZero (L d)] (bc : Fin n → Bool) (tmp tmp' : Fin n → CField L N) (mass : ℝ) (U : GField L N) (g : PSite L → Mat N)
    (hg : IsGauge g) (psi : CField L N) (x : PSite L) :
    (diracStaggered bc tmp mass).apply (gaugeT g U) (fun y => (g y).mulVec (psi y)) x =
      (g x).mulVec ((diracStaggered bc tmp' mass).apply U psi x) ∧
    (diracStaggered bc tmp mass).dagger (gaugeT g U) (fun y => (g y).mulVec (psi y)) x =
      (g x).mulVec ((diracStaggered bc tmp' mass).dagger U psi x) := by
  have h : hopAt bc (gaugeT g U) (fun y => (g y).mulVec (psi y)) x = (g x).mulVec (hopAt bc U psi x) := by
    unfold hopAt
    rw [mulVec_sum]
    refine Finset.sum_congr rfl fun d _ => ?_
    rw [mulVec_smul, mulVec_sub, mulVec_smul, mulVec_smul]
    congr 2
    · rw [gaugeT_apply, mulVec_mulVec, mulVec_mulVec, Matrix.mul_assoc, hg.left, Matrix.mul_one]
    · rw [gaugeT_apply, mulVec_mulVec, mulVec_mulVec, sub_add_cancel, conjTranspose_mul, conjTranspose_mul, conjTranspose_conjTranspose,
        Matrix.mul_assoc, Matrix.mul_assoc, hg.left, Matrix.mul_one]
  rw [stag_apply, stag_apply, stag_dagger, stag_dagger, h, mulVec_add, mulVec_sub, mulVec_smul]
  exact ⟨rfl, rfl⟩

/-- The square of the norm of a field. -/
noncomputable def fieldSq [∀ d, NeZero (L d)] (psi : CField L N) : ℝ := ∑ x, ∑ i, Complex.normSq (psi x i)

theorem dot_self (a : Fin N → ℂ) : star a ⬝ᵥ a = ((∑ i, Complex.normSq (a i) : ℝ) : ℂ) := by
  unfold dotProduct
  push_cast
  refine Finset.sum_congr rfl fun i _ => ?_
  rw [Pi.star_apply, Complex.normSq_eq_conj_mul_self]
  rfl

theorem fieldSq_dot [∀ d, NeZero (L d)] (psi : CField L N) : ∑ x, star (psi x) ⬝ᵥ psi x = ((fieldSq psi : ℝ) : ℂ) := by
  unfold fieldSq
  push_cast
  exact Finset.sum_congr rfl fun x _ => by rw [dot_self]; push_cast; rfl

theorem fieldSq_nonneg [∀ d, NeZero (L d)] (psi : CField L N) : 0 ≤ fieldSq psi :=
  Finset.sum_nonneg fun _ _ => Finset.sum_nonneg fun _ _ => Complex.normSq_nonneg _

theorem fieldSq_eq_zero [∀ d, NeZero (L d)] {psi : CField L N} (h : fieldSq psi = 0) : psi = 0 := by
  unfold fieldSq at h
  funext x i
  have h1 := (Finset.sum_eq_zero_iff_of_nonneg fun x _ => Finset.sum_nonneg fun i _ => Complex.normSq_nonneg (psi x i)).1 h x (Finset.mem_univ x)
  have h2 := (Finset.sum_eq_zero_iff_of_nonneg fun i _ => Complex.normSq_nonneg (psi x i)).1 h1 i (Finset.mem_univ i)
  exact Complex.normSq_eq_zero.1 h2

theorem hop_self_re [∀ d, NeZero (L d)] (bc : Fin n → Bool) (U : GField L N) (psi : CField L N) :
    (∑ x, star (psi x) ⬝ᵥ hopAt bc U psi x).re = 0 := by
  have h := hopAt_anti bc U psi psi
  have h2 : ∑ x, star (hopAt bc U psi x) ⬝ᵥ psi x = star (∑ x, star (psi x) ⬝ᵥ hopAt bc U psi x) := by
    rw [star_sum]
    exact Finset.sum_congr rfl fun x _ => by rw [star_dotProduct]
  rw [h2] at h
  have h3 := congrArg Complex.re h
  have h4 : (star (∑ x, star (psi x) ⬝ᵥ hopAt bc U psi x)).re = (∑ x, star (psi x) ⬝ᵥ hopAt bc U psi x).re := Complex.conj_re _
  rw [Complex.neg_re, h4] at h3
  linarith

theorem stag_sq [∀ d, NeZero (L d)] (bc : Fin n → Bool) (tmp : Fin n → CField L N) (mass : ℝ) (U : GField L N) (psi : CField L N) :
    fieldSq ((diracStaggered bc tmp mass).apply U psi) = mass ^ 2 * fieldSq psi + fieldSq (stagDiff bc U psi) := by
  have e : ∀ x, ∑ i, Complex.normSq ((diracStaggered bc tmp mass).apply U psi x i) =
      mass ^ 2 * (∑ i, Complex.normSq (psi x i)) + (∑ i, Complex.normSq (stagDiff bc U psi x i)) +
        2 * mass * (star (psi x) ⬝ᵥ hopAt bc U psi x).re := by
    intro x
    have hd : stagDiff bc U psi x = -hopAt bc U psi x := by rw [hopAt_spec, neg_neg]
    rw [stag_apply, hd, dotProduct, Complex.re_sum, Finset.mul_sum, Finset.mul_sum, ← Finset.sum_add_distrib, ← Finset.sum_add_distrib]
    refine Finset.sum_congr rfl fun i _ => ?_
    rw [Pi.add_apply, Pi.smul_apply, Pi.neg_apply, Pi.star_apply, smul_eq_mul, Complex.normSq_add, Complex.normSq_mul, Complex.normSq_ofReal,
      Complex.normSq_neg]
    have h : ((mass : ℂ) * psi x i * (starRingEnd ℂ) (hopAt bc U psi x i)).re = mass * (star (psi x i) * hopAt bc U psi x i).re := by
      rw [mul_assoc, Complex.re_ofReal_mul]
      congr 1
      simp only [Complex.mul_re, Complex.conj_re, Complex.conj_im, Complex.star_def]
      ring
    rw [h]
    ring
  unfold fieldSq
  simp only [e, Finset.sum_add_distrib, ← Finset.mul_sum]
  rw [← Complex.re_sum, hop_self_re]
  ring

/-- C66. The operator commutes with its adjoint, `|Dψ|² = m²|ψ|² + |Δψ|²`, and with a mass it is invertible: the solution of `D ψ = χ`
exists and is unique. -/
theorem C66_normal [∀ d, NeZero (L d)] (bc : Fin n → Bool) (tmp : Fin n → CField L N) (mass : ℝ) (U : GField L N) :
    (∀ psi, (diracStaggered bc tmp mass).dagger U ((diracStaggered bc tmp mass).apply U psi) =
      (diracStaggered bc tmp mass).apply U ((diracStaggered bc tmp mass).dagger U psi)) ∧
    (∀ psi, fieldSq ((diracStaggered bc tmp mass).apply U psi) = mass ^ 2 * fieldSq psi + fieldSq (stagDiff bc U psi)) ∧
    (mass ≠ 0 → Function.Bijective ((diracStaggered bc tmp mass).apply U) ∧ Function.Bijective ((diracStaggered bc tmp mass).dagger U)) := by
  have happ : ∀ psi, (diracStaggered bc tmp mass).apply U psi = (mass : ℂ) • psi + hopAt bc U psi := fun psi => funext fun x => stag_apply bc tmp mass U psi x
  have hdag : ∀ psi, (diracStaggered bc tmp mass).dagger U psi = (mass : ℂ) • psi + (-1 : ℂ) • hopAt bc U psi := fun psi => funext fun x => by
    rw [stag_dagger, sub_eq_add_neg]
    simp
  have hadd : ∀ psi phi, hopAt bc U (psi + phi) = hopAt bc U psi + hopAt bc U phi := fun psi phi => funext fun x => hopAt_add bc U psi phi x
  have hsm : ∀ (c : ℂ) psi, hopAt bc U (c • psi) = c • hopAt bc U psi := fun c psi => funext fun x => hopAt_smul bc U c psi x
  have hcomm : ∀ psi, (diracStaggered bc tmp mass).dagger U ((diracStaggered bc tmp mass).apply U psi) =
      (diracStaggered bc tmp mass).apply U ((diracStaggered bc tmp mass).dagger U psi) := by
    intro psi
    rw [happ, happ, hdag, hdag]
    simp only [hadd, hsm, smul_add, smul_smul]
    rw [mul_comm (mass : ℂ) (-1)]
    abel
  refine ⟨hcomm, stag_sq bc tmp mass U, fun hm => ?_⟩
  let f : CField L N →ₗ[ℂ] CField L N :=
    { toFun := (diracStaggered bc tmp mass).apply U
      map_add' := fun a b => by simp only [happ, hadd, smul_add]; abel
      map_smul' := fun c a => by simp only [happ, hsm, smul_add, RingHom.id_apply]; rw [smul_comm] }
  let g : CField L N →ₗ[ℂ] CField L N :=
    { toFun := (diracStaggered bc tmp mass).dagger U
      map_add' := fun a b => by simp only [hdag, hadd, smul_add]; abel
      map_smul' := fun c a => by simp only [hdag, hsm, smul_add, RingHom.id_apply]; rw [smul_comm c (mass : ℂ), smul_comm c (-1 : ℂ)] }
  have hf : Function.Injective f := by
    refine (injective_iff_map_eq_zero f).2 fun a ha => ?_
    have h := stag_sq bc tmp mass U a
    have ha' : (diracStaggered bc tmp mass).apply U a = 0 := ha
    rw [ha'] at h
    have h0 : fieldSq (0 : CField L N) = 0 := by simp [fieldSq]
    rw [h0] at h
    have h1 := fieldSq_nonneg (stagDiff bc U a)
    have h2 := fieldSq_nonneg a
    have h3 : 0 < mass ^ 2 := by positivity
    exact fieldSq_eq_zero (by nlinarith)
  have hfb : Function.Bijective f := ⟨hf, LinearMap.surjective_of_injective hf⟩
  refine ⟨hfb, ?_⟩
  have hg : Function.Injective g := by
    refine (injective_iff_map_eq_zero g).2 fun a ha => ?_
    have h := stag_sq bc tmp (-mass) U a
    have ha' : (diracStaggered bc tmp (-mass)).apply U a = 0 := by
      funext x
      have h5 := congrFun ha x
      have h6 : (diracStaggered bc tmp mass).dagger U a x = 0 := h5
      rw [stag_dagger] at h6
      have h7 : hopAt bc U a x = (mass : ℂ) • a x := (sub_eq_zero.1 h6).symm
      rw [stag_apply, h7, Complex.ofReal_neg, neg_smul, neg_add_cancel]
      rfl
    rw [ha'] at h
    have h0 : fieldSq (0 : CField L N) = 0 := by simp [fieldSq]
    rw [h0] at h
    have h1 := fieldSq_nonneg (stagDiff bc U a)
    have h2 := fieldSq_nonneg a
    have h3 : 0 < mass ^ 2 := by positivity
    exact fieldSq_eq_zero (by nlinarith)
  exact ⟨hg, LinearMap.surjective_of_injective hg⟩

/-! ### Free fermions -/

/-- The difference of the neighbours in one direction. -/
noncomputable def diffD (bc : Fin n → Bool) (d : Fin n) (f : CField L N) (x : PSite L) : Fin N → ℂ :=
  bcSign bc d x • f (x + unitStep d) - bcSign bc d (x - unitStep d) • f (x - unitStep d)

theorem unitStep_ne {d e : Fin n} (h : d ≠ e) : (unitStep d : PSite L) e = 0 := by simp [unitStep, h.symm]

theorem bcSign_add (bc : Fin n → Bool) {d e : Fin n} (h : d ≠ e) (x : PSite L) : bcSign bc e (x + unitStep d) = bcSign bc e x := by
  unfold bcSign
  rw [Pi.add_apply, unitStep_ne h, add_zero]

theorem bcSign_sub (bc : Fin n → Bool) {d e : Fin n} (h : d ≠ e) (x : PSite L) : bcSign bc e (x - unitStep d) = bcSign bc e x := by
  unfold bcSign
  rw [Pi.sub_apply, unitStep_ne h, sub_zero]

theorem diffD_comm (bc : Fin n → Bool) {d e : Fin n} (h : d ≠ e) (f : CField L N) (x : PSite L) :
    diffD bc d (diffD bc e f) x = diffD bc e (diffD bc d f) x := by
  unfold diffD
  have h2 : ∀ y : PSite L, bcSign bc e (y + unitStep d) = bcSign bc e y := bcSign_add bc h
  have h3 : ∀ y : PSite L, bcSign bc e (y - unitStep d) = bcSign bc e y := bcSign_sub bc h
  have h4 : ∀ y : PSite L, bcSign bc d (y + unitStep e) = bcSign bc d y := bcSign_add bc h.symm
  have h5 : ∀ y : PSite L, bcSign bc d (y - unitStep e) = bcSign bc d y := bcSign_sub bc h.symm
  have a1 : x + unitStep d + unitStep e = x + unitStep e + unitStep d := by abel
  have a2 : x + unitStep d - unitStep e = x - unitStep e + unitStep d := by abel
  have a3 : x - unitStep d + unitStep e = x + unitStep e - unitStep d := by abel
  have a4 : x - unitStep d - unitStep e = x - unitStep e - unitStep d := by abel
  have b1 : bcSign bc d (x + unitStep e - unitStep d) = bcSign bc d (x - unitStep d) := by rw [← h4 (x - unitStep d), a3]
  have b2 : bcSign bc d (x - unitStep e - unitStep d) = bcSign bc d (x - unitStep d) := by rw [← h5 (x - unitStep d), a4]
  rw [a1, a2, a3, a4, b1, b2]
  simp only [h2, h3, h4, h5, smul_sub, smul_smul]
  generalize bcSign bc d x = s1
  generalize bcSign bc e x = s2
  generalize bcSign bc d (x - unitStep d) = s3
  generalize bcSign bc e (x - unitStep e) = s4
  rw [mul_comm s2 s1, mul_comm s2 s3, mul_comm s4 s1, mul_comm s4 s3]
  abel

theorem stagEta_flip_sub [∀ d, NeZero (L d)] (hL : ∀ d, Even (L d)) {d e : Fin n} (h : e < d) (x : PSite L) :
    stagEta d (x - unitStep e) = -stagEta d x := by
  have := stagEta_flip hL h (x - unitStep e)
  rw [sub_add_cancel] at this
  rw [this, neg_neg]

theorem hopAt_free (bc : Fin n → Bool) (psi : CField L N) (x : PSite L) :
    hopAt bc (fun _ _ => 1) psi x = ∑ d, ((0.5 * stagEta d x : ℝ) : ℂ) • diffD bc d psi x := by
  unfold hopAt diffD
  refine Finset.sum_congr rfl fun d _ => ?_
  rw [conjTranspose_one, one_mulVec, one_mulVec]

/-- The sign of the phase of direction `e` after a step in direction `d`. -/
def etaSwap (d e : Fin n) : ℝ := if d < e then -1 else 1

theorem diffD_eta [∀ d, NeZero (L d)] (hL : ∀ d, Even (L d)) (bc : Fin n → Bool) (d e : Fin n) (f : CField L N) (x : PSite L) :
    diffD bc d (fun y => ((0.5 * stagEta e y : ℝ) : ℂ) • f y) x = ((0.5 * etaSwap d e * stagEta e x : ℝ) : ℂ) • diffD bc d f x := by
  unfold diffD etaSwap
  beta_reduce
  split_ifs with h
  · rw [stagEta_flip hL h, stagEta_flip_sub hL h, smul_sub]
    congr 1
    · rw [smul_smul, smul_smul]; congr 1; push_cast; ring
    · rw [smul_smul, smul_smul]; congr 1; push_cast; ring
  · have h2 : e ≤ d := by omega
    rw [stagEta_add e d h2, stagEta_sub e d h2, smul_sub]
    congr 1
    · rw [smul_smul, smul_smul]; congr 1; push_cast; ring
    · rw [smul_smul, smul_smul]; congr 1; push_cast; ring

theorem diffD_sum (bc : Fin n → Bool) (d : Fin n) (f : Fin n → CField L N) (x : PSite L) :
    diffD bc d (fun y => ∑ e, f e y) x = ∑ e, diffD bc d (f e) x := by
  unfold diffD
  rw [Finset.smul_sum, Finset.smul_sum, ← Finset.sum_sub_distrib]

/-- A sum over pairs of which only the diagonal remains. -/
theorem sum_antisymm {V : Type} [AddCommGroup V] [Module ℂ V] (F : Fin n → Fin n → V) (h : ∀ d e, d ≠ e → F d e = -F e d) :
    ∑ d, ∑ e, F d e = ∑ d, F d d := by
  have h1 : ∑ d, ∑ e, (if d = e then 0 else F d e) = 0 := by
    have h2 : ∑ d, ∑ e, (if d = e then 0 else F d e) = -∑ d, ∑ e, (if d = e then 0 else F d e) := by
      conv_lhs => rw [Finset.sum_comm]
      rw [← Finset.sum_neg_distrib]
      refine Finset.sum_congr rfl fun d _ => ?_
      rw [← Finset.sum_neg_distrib]
      refine Finset.sum_congr rfl fun e _ => ?_
      by_cases hde : d = e
      · rw [if_pos hde, if_pos hde.symm, neg_zero]
      · rw [if_neg hde, if_neg fun h3 => hde h3.symm, h e d fun h3 => hde h3.symm]
    have h3 : (2 : ℂ) • ∑ d, ∑ e, (if d = e then 0 else F d e) = 0 := by
      rw [two_smul]
      nth_rewrite 1 [h2]
      rw [neg_add_cancel]
    exact (smul_eq_zero.1 h3).resolve_left (by norm_num)
  have h4 : ∑ d, ∑ e, F d e = ∑ d, ∑ e, (if d = e then 0 else F d e) + ∑ d, F d d := by
    rw [← Finset.sum_add_distrib]
    refine Finset.sum_congr rfl fun d _ => ?_
    have h5 : F d d = ∑ e, if d = e then F d e else 0 := by rw [Finset.sum_ite_eq Finset.univ d fun e => F d e, if_pos (Finset.mem_univ d)]
    rw [h5, ← Finset.sum_add_distrib]
    refine Finset.sum_congr rfl fun e _ => ?_
    split_ifs <;> simp
  rw [h4, h1, zero_add]

theorem hop_hop_free [∀ d, NeZero (L d)] (hL : ∀ d, Even (L d)) (bc : Fin n → Bool) (psi : CField L N) (x : PSite L) :
    hopAt bc (fun _ _ => 1) (hopAt bc (fun _ _ => 1) psi) x = ∑ d, (1 / 4 : ℂ) • diffD bc d (diffD bc d psi) x := by
  have e : hopAt bc (fun _ _ => 1) psi = fun y => ∑ e, ((0.5 * stagEta e y : ℝ) : ℂ) • diffD bc e psi y := funext fun y => hopAt_free bc psi y
  rw [hopAt_free, e]
  have e2 : ∀ d, ((0.5 * stagEta d x : ℝ) : ℂ) • diffD bc d (fun y => ∑ e, ((0.5 * stagEta e y : ℝ) : ℂ) • diffD bc e psi y) x =
      ∑ e, ((0.25 * etaSwap d e * stagEta d x * stagEta e x : ℝ) : ℂ) • diffD bc d (diffD bc e psi) x := by
    intro d
    rw [diffD_sum, Finset.smul_sum]
    refine Finset.sum_congr rfl fun e _ => ?_
    rw [diffD_eta hL, smul_smul]
    congr 1
    push_cast
    norm_num
    ring
  simp only [e2]
  rw [sum_antisymm]
  · refine Finset.sum_congr rfl fun d _ => ?_
    congr 1
    unfold etaSwap
    rw [if_neg (lt_irrefl d), mul_assoc, stagEta_sq]
    norm_num
  · intro d e hde
    rw [diffD_comm bc hde, ← neg_smul]
    congr 1
    have : etaSwap d e = -etaSwap e d := by
      unfold etaSwap
      rcases lt_or_gt_of_ne hde with h | h
      · rw [if_pos h, if_neg (not_lt.2 h.le)]
      · rw [if_neg (not_lt.2 h.le), if_pos h, neg_neg]
    rw [this]
    push_cast
    ring

/-- C66. Without gauge field the square of the operator is the lattice Laplace operator with twice the spacing (lattice of even size): the
phases are right, the doublers of the naive operator decouple. -/
theorem C66_free [∀ d, NeZero (L d)] (hL : ∀ d, Even (L d)) (bc : Fin n → Bool) (tmp : Fin n → CField L N) (mass : ℝ) (psi : CField L N) (x : PSite L) :
    (diracStaggered bc tmp mass).dagger (fun _ _ => 1) ((diracStaggered bc tmp mass).apply (fun _ _ => 1) psi) x =
      ((mass : ℂ) ^ 2) • psi x +
        ∑ d, (1 / 4 : ℂ) • ((2 : ℂ) • psi x - nbrUp bc (nbrUp bc psi d) d x - nbrDown bc (fun _ _ => 1) (nbrDown bc (fun _ _ => 1) psi d) d x) := by
  have happ : (diracStaggered bc tmp mass).apply (fun _ _ => 1) psi = (mass : ℂ) • psi + hopAt bc (fun _ _ => 1) psi :=
    funext fun x => stag_apply bc tmp mass _ psi x
  rw [stag_dagger, happ, hopAt_add, hopAt_smul, hop_hop_free hL, Pi.add_apply, Pi.smul_apply, smul_add, smul_smul, ← pow_two]
  have e : ∀ d, diffD bc d (diffD bc d psi) x = nbrUp bc (nbrUp bc psi d) d x + nbrDown bc (fun _ _ => 1) (nbrDown bc (fun _ _ => 1) psi d) d x - (2 : ℂ) • psi x := by
    intro d
    have h1 : ∀ (f : CField L N) (y : PSite L), nbrUp bc f d y = bcSign bc d y • f (y + unitStep d) := fun f y => (fwdBc_eq bc f d y)
    have h2 : ∀ (f : CField L N) (y : PSite L), nbrDown bc (fun _ _ => 1) f d y = bcSign bc d (y - unitStep d) • f (y - unitStep d) := by
      intro f y
      have := (bwdBc_eq bc (fun y => (((1 : Mat N))ᴴ).mulVec (f y)) d y)
      refine Eq.trans ?_ (this.trans ?_)
      · rfl
      · rw [conjTranspose_one, one_mulVec]
    rw [h1, h1, h2, h2]
    unfold diffD
    simp only [smul_sub, smul_smul, add_sub_cancel_right, sub_add_cancel, bcSign_sq]
    rw [two_smul, one_smul]
    abel
  simp only [e, smul_sub, smul_add, Finset.sum_add_distrib, Finset.sum_sub_distrib]
  abel

/-! ### Adjoint and force of an operator -/

/-- `dagger` is the adjoint of `apply` on the sites of the operator. -/
def DaggerIsAdjoint [∀ d, NeZero (L d)] (D : DiracOp L N) (U : GField L N) : Prop :=
  ∀ chi psi, cdotOn D.par chi (D.apply U psi) = cdotOn D.par (D.dagger U chi) psi

/-- `force` gives the derivatives of the real scalar products `⟨χ, D ψ⟩` (sign 1) and `⟨χ, D† ψ⟩` (sign -1) when the links change
according to `U' = A U`: the derivative is the sum of `Re tr(A U F)` over the links. -/
def ForceIsDerivative [∀ d, NeZero (L d)] (D : DiracOp L N) (U : ℝ → GField L N) (A : GField L N) : Prop :=
  ∀ chi psi,
    HasDerivAt (fun t => (cdotOn D.par chi (D.apply (U t) psi)).re) (∑ d, ∑ x, (A d x * U 0 d x * D.force (U 0) chi psi 1 d x).trace.re) 0 ∧
    HasDerivAt (fun t => (cdotOn D.par chi (D.dagger (U t) psi)).re) (∑ d, ∑ x, (A d x * U 0 d x * D.force (U 0) chi psi (-1) d x).trace.re) 0

theorem cdotOn_add [∀ d, NeZero (L d)] (par : Parity) (chi psi phi : CField L N) :
    cdotOn par chi (fun x => psi x + phi x) = cdotOn par chi psi + cdotOn par chi phi := by
  unfold cdotOn
  rw [← Finset.sum_add_distrib]
  refine Finset.sum_congr rfl fun x _ => ?_
  split_ifs
  · rw [dotProduct_add]
  · rw [add_zero]

theorem cdotOn_smul [∀ d, NeZero (L d)] (par : Parity) (c : ℂ) (chi psi : CField L N) :
    cdotOn par chi (fun x => c • psi x) = c * cdotOn par chi psi := by
  unfold cdotOn
  rw [Finset.mul_sum]
  refine Finset.sum_congr rfl fun x _ => ?_
  split_ifs
  · rw [dotProduct_smul, smul_eq_mul]
  · rw [mul_zero]

theorem cdotOn_smul_left [∀ d, NeZero (L d)] (par : Parity) (c : ℂ) (chi psi : CField L N) :
    cdotOn par (fun x => c • chi x) psi = star c * cdotOn par chi psi := by
  unfold cdotOn
  rw [Finset.mul_sum]
  refine Finset.sum_congr rfl fun x _ => ?_
  split_ifs
  · rw [star_smul, smul_dotProduct, smul_eq_mul]
  · rw [mul_zero]

theorem cdotOn_add_left [∀ d, NeZero (L d)] (par : Parity) (chi phi psi : CField L N) :
    cdotOn par (fun x => chi x + phi x) psi = cdotOn par chi psi + cdotOn par phi psi := by
  unfold cdotOn
  rw [← Finset.sum_add_distrib]
  refine Finset.sum_congr rfl fun x _ => ?_
  split_ifs
  · rw [star_add, add_dotProduct]
  · rw [add_zero]

theorem cdotOn_congr [∀ d, NeZero (L d)] {par : Parity} {chi chi' psi psi' : CField L N} (h1 : ∀ x, VisitsPar par x → chi x = chi' x)
    (h2 : ∀ x, VisitsPar par x → psi x = psi' x) : cdotOn par chi psi = cdotOn par chi' psi' := by
  unfold cdotOn
  refine Finset.sum_congr rfl fun x _ => ?_
  split_ifs with h
  · rw [h1 x h, h2 x h]
  · rfl

/-- Derivative of the hopping term along a curve of links and fields. -/
theorem hopAt_deriv [∀ d, NeZero (L d)] (bc : Fin n → Bool) {U : ℝ → GField L N} {A : GField L N} (hU : LinkCurve U A) (phi : ℝ → CField L N)
    (phi' : CField L N) (hphi : ∀ x i, HasDerivAt (fun t => phi t x i) (phi' x i) 0) (x : PSite L) (i : Fin N) :
    HasDerivAt (fun t => hopAt bc (U t) (phi t) x i)
      (hopAt bc (fun d x => A d x * U 0 d x) (phi 0) x i + hopAt bc (U 0) phi' x i) 0 := by
  have hm : ∀ (M : ℝ → Mat N) (M' : Mat N), MDeriv M M' → ∀ y, HasDerivAt (fun t => (M t).mulVec (phi t y) i)
      (M'.mulVec (phi 0 y) i + (M 0).mulVec (phi' y) i) 0 := by
    intro M M' h y
    unfold mulVec dotProduct
    rw [← Finset.sum_add_distrib]
    exact HasDerivAt.fun_sum fun j _ => (h i j).mul (hphi y j)
  unfold hopAt
  simp only [Finset.sum_apply, Pi.smul_apply, Pi.sub_apply, smul_eq_mul]
  rw [← Finset.sum_add_distrib]
  refine HasDerivAt.fun_sum fun d _ => ?_
  have h1 := (hm _ _ (hU d x) (x + unitStep d)).const_mul (bcSign bc d x)
  have h2 := (hm _ _ (hU d (x - unitStep d)).star (x - unitStep d)).const_mul (bcSign bc d (x - unitStep d))
  refine ((h1.sub h2).const_mul ((0.5 * stagEta d x : ℝ) : ℂ)).congr_deriv ?_
  ring

theorem hopAt_deriv_const [∀ d, NeZero (L d)] (bc : Fin n → Bool) {U : ℝ → GField L N} {A : GField L N} (hU : LinkCurve U A) (phi : CField L N)
    (x : PSite L) (i : Fin N) :
    HasDerivAt (fun t => hopAt bc (U t) phi x i) (hopAt bc (fun d x => A d x * U 0 d x) phi x i) 0 := by
  refine (hopAt_deriv bc hU (fun _ => phi) 0 (fun y j => hasDerivAt_const _ _) x i).congr_deriv ?_
  have : hopAt bc (U 0) (0 : CField L N) x = 0 := by
    have := hopAt_smul bc (U 0) 0 (0 : CField L N) x
    rwa [zero_smul, zero_smul] at this
  rw [this, Pi.zero_apply, add_zero]

theorem cdotOn_deriv [∀ d, NeZero (L d)] (par : Parity) (chi : CField L N) (phi : ℝ → CField L N)
    (phi' : CField L N) (hphi : ∀ x i, VisitsPar par x → HasDerivAt (fun t => phi t x i) (phi' x i) 0) :
    HasDerivAt (fun t => (cdotOn par chi (phi t)).re) (cdotOn par chi phi').re 0 := by
  refine re_deriv ?_
  unfold cdotOn
  refine HasDerivAt.fun_sum fun x _ => ?_
  split_ifs with hx
  · exact HasDerivAt.fun_sum fun i _ => (hphi x i hx).const_mul _
  · exact hasDerivAt_const _ _

theorem hop_force_val [∀ d, NeZero (L d)] {par : Parity} (hp : par = .all ∨ ∀ d, Even (L d)) (bc : Fin n → Bool) {U : ℝ → GField L N}
    {A : GField L N} (hU : LinkCurve U A) (chi psi : CField L N) (sign : ℤ) :
    pairM A (U 0) (stagCalcForce bc chi psi sign par) =
      (cdotOn (oppParity par) chi (fun x => (sign : ℂ) • hopAt bc (fun d x => A d x * U 0 d x) psi x)).re := by
  refine (hop_force hp bc hU chi psi sign).unique ?_
  exact cdotOn_deriv _ chi _ _ fun x i _ => (hopAt_deriv_const bc hU psi x i).const_mul _

/-- C66. The force of the staggered operator is the derivative of its scalar products. -/
theorem C66_force [∀ d, NeZero (L d)] (bc : Fin n → Bool) (tmp : Fin n → CField L N) (mass : ℝ) {U : ℝ → GField L N} {A : GField L N}
    (hU : LinkCurve U A) : ForceIsDerivative (diracStaggered bc tmp mass) U A := by
  intro chi psi
  constructor
  · have h := hop_force_val (Or.inl rfl) bc hU chi psi 1 (par := .all)
    refine HasDerivAt.congr_deriv (cdotOn_deriv .all chi _ (fun x => ((1 : ℤ) : ℂ) • hopAt bc (fun d x => A d x * U 0 d x) psi x) fun x i _ => ?_) h.symm
    simp only [stag_apply, Pi.add_apply, Int.cast_one, one_smul]
    exact (hopAt_deriv_const bc hU psi x i).const_add _
  · have h := hop_force_val (Or.inl rfl) bc hU chi psi (-1) (par := .all)
    refine HasDerivAt.congr_deriv (cdotOn_deriv .all chi _ (fun x => ((-1 : ℤ) : ℂ) • hopAt bc (fun d x => A d x * U 0 d x) psi x) fun x i _ => ?_) h.symm
    simp only [stag_dagger, Pi.sub_apply, Int.cast_neg, Int.cast_one, neg_smul, one_smul]
    exact (hopAt_deriv_const bc hU psi x i).const_sub _

theorem stag_adjoint [∀ d, NeZero (L d)] (bc : Fin n → Bool) (tmp : Fin n → CField L N) (mass : ℝ) (U : GField L N) :
    DaggerIsAdjoint (diracStaggered bc tmp mass) U := by
  intro chi psi
  have h := C66_adjoint bc tmp tmp mass U chi psi
  have e : ∀ a b : CField L N, cdotOn .all a b = ∑ x, star (a x) ⬝ᵥ b x := fun a b =>
    Finset.sum_congr rfl fun x _ => if_pos (show VisitsPar .all x from trivial)
  change cdotOn .all _ _ = cdotOn .all _ _
  rw [e, e]
  exact h

/-! ### Even-odd preconditioning -/

theorem eo_formula [∀ d, NeZero (L d)] (hL : ∀ d, Even (L d)) (bc : Fin n → Bool) (tmp tmp2 : Fin n → CField L N) (mass : ℝ) (U : GField L N)
    (psi : CField L N) (sign : ℤ) (x : PSite L) (hx : VisitsPar .even x) :
    stagEO bc tmp tmp2 mass U psi sign x = (mass : ℂ) • psi x + ((sign * sign / mass : ℝ) : ℂ) • hopAt bc U (hopAt bc U psi) x := by
  have hox : ¬ VisitsPar .odd x := by
    change (∑ e, (x e).val) % 2 = 0 at hx
    change ¬ (∑ e, (x e).val) % 2 = 1
    omega
  unfold stagEO
  rw [stagHopSelf_eq hL (Or.inl rfl), if_pos hx]
  congr 1
  · unfold stagDiagInv assignOn
    rw [if_neg hox, stagHop_eq (Or.inr hL), if_neg hox]
    unfold stagDiag assignOn
    rw [if_pos hx]
    beta_reduce
    rw [zero_add]
  · have h : hopAt bc U (stagDiagInv mass (stagHop bc tmp U psi (stagDiag mass psi (fun _ => 0) .even) .odd sign) .odd) x =
        hopAt bc U (((sign / mass : ℝ) : ℂ) • hopAt bc U psi) x := by
      have hv : ∀ y, VisitsPar .odd y → stagDiagInv mass (stagHop bc tmp U psi (stagDiag mass psi (fun _ => 0) .even) .odd sign) .odd y =
          (((sign / mass : ℝ) : ℂ) • hopAt bc U psi) y := by
        intro y hy
        have hey : ¬ VisitsPar .even y := by
          change (∑ e, (y e).val) % 2 = 1 at hy
          change ¬ (∑ e, (y e).val) % 2 = 0
          omega
        unfold stagDiagInv assignOn
        rw [if_pos hy]
        beta_reduce
        rw [stagHop_eq (Or.inr hL), if_pos hy]
        unfold stagDiag assignOn
        rw [if_neg hey, zero_add, Pi.smul_apply, smul_smul]
        congr 1
        have e1 : (1.0 / mass : ℝ) = 1 / mass := by norm_num
        rw [e1]
        push_cast
        ring
      exact hopAt_congr bc U x fun d => ⟨hv _ ((visits_fwd (par := .even) (Or.inr hL) x d).2 hx), hv _ ((visits_bwd (par := .even) (Or.inr hL) x d).2 hx)⟩
    rw [h, hopAt_smul, smul_smul]
    congr 1
    push_cast
    ring

/-- C66. What the even-odd preconditioned operator computes at the even sites, with the square of the full operator `D`: `2m - D†D/m`
(lattice of even size). Missing for the property: the matrix that belongs to `D` is `D†D/m`, see `C66_evenodd_wrong`. -/
theorem C66_evenodd_partial [∀ d, NeZero (L d)] (hL : ∀ d, Even (L d)) (bc : Fin n → Bool) (tmp tmp2 : Fin n → CField L N) (mass : ℝ)
    (hm : mass ≠ 0) (U : GField L N) (psi : CField L N) (x : PSite L) (hx : (∑ e, (x e).val) % 2 = 0) :
    (diracStaggeredEO bc tmp tmp2 mass).apply U psi x = ((2 * mass : ℝ) : ℂ) • psi x -
      ((1 / mass : ℝ) : ℂ) • (diracStaggered bc tmp mass).dagger U ((diracStaggered bc tmp mass).apply U psi) x ∧
    (diracStaggeredEO bc tmp tmp2 mass).dagger U psi x = (diracStaggeredEO bc tmp tmp2 mass).apply U psi x := by
  have hmc : (mass : ℂ) ≠ 0 := by exact_mod_cast hm
  have h1 : (diracStaggeredEO bc tmp tmp2 mass).apply U psi x = (mass : ℂ) • psi x + ((1 / mass : ℝ) : ℂ) • hopAt bc U (hopAt bc U psi) x := by
    change stagEO bc tmp tmp2 mass U psi 1 x = _
    rw [eo_formula hL _ _ _ _ _ _ _ _ hx]
    norm_num
  have h2 : (diracStaggeredEO bc tmp tmp2 mass).dagger U psi x = (mass : ℂ) • psi x + ((1 / mass : ℝ) : ℂ) • hopAt bc U (hopAt bc U psi) x := by
    change stagEO bc tmp tmp2 mass U psi (-1) x = _
    rw [eo_formula hL _ _ _ _ _ _ _ _ hx]
    norm_num
  have happ : (diracStaggered bc tmp mass).apply U psi = (mass : ℂ) • psi + hopAt bc U psi :=
    funext fun x => stag_apply bc tmp mass _ psi x
  refine ⟨?_, h2.trans h1.symm⟩
  rw [h1, stag_dagger, happ, hopAt_add, hopAt_smul, Pi.add_apply, Pi.smul_apply]
  funext i
  simp only [Pi.add_apply, Pi.sub_apply, Pi.smul_apply, smul_eq_mul]
  push_cast
  field_simp
  ring

/-- C66. `dagger` of the even-odd operator is the adjoint of `apply` on the even sites. -/
theorem C66_evenodd_adjoint [∀ d, NeZero (L d)] (hL : ∀ d, Even (L d)) (bc : Fin n → Bool) (tmp tmp2 : Fin n → CField L N) (mass : ℝ)
    (U : GField L N) : DaggerIsAdjoint (diracStaggeredEO bc tmp tmp2 mass) U := by
  intro chi psi
  have h : ∀ s : ℤ, ∀ a b, cdotOn .even a (stagEO bc tmp tmp2 mass U b s) = (mass : ℂ) * cdotOn .even a b +
      ((s * s / mass : ℝ) : ℂ) * cdotOn .even a (hopAt bc U (hopAt bc U b)) := by
    intro s a b
    rw [cdotOn_congr (fun x _ => rfl) (fun x hx => eo_formula hL bc tmp tmp2 mass U b s x hx), cdotOn_add, cdotOn_smul, cdotOn_smul]
  have h' : ∀ s : ℤ, ∀ a b, cdotOn .even (stagEO bc tmp tmp2 mass U a s) b = (mass : ℂ) * cdotOn .even a b +
      ((s * s / mass : ℝ) : ℂ) * cdotOn .even (hopAt bc U (hopAt bc U a)) b := by
    intro s a b
    have e3 : ∀ r : ℝ, star (r : ℂ) = r := fun r => Complex.conj_ofReal r
    rw [cdotOn_congr (fun x hx => eo_formula hL bc tmp tmp2 mass U a s x hx) (fun x _ => rfl), cdotOn_add_left, cdotOn_smul_left, cdotOn_smul_left, e3, e3]
  change cdotOn .even chi (stagEO bc tmp tmp2 mass U psi 1) = cdotOn .even (stagEO bc tmp tmp2 mass U chi (-1)) psi
  rw [h, h', hop_anti_par (Or.inr hL)]
  have h2 := hop_anti_par (par := .odd) (Or.inr hL) bc U (hopAt bc U chi) psi
  change cdotOn .odd _ _ = -cdotOn .even _ _ at h2
  change _ + _ * -cdotOn .odd _ _ = _
  rw [h2, neg_neg]
  norm_num

/-- C66. The force of the even-odd preconditioned operator is the derivative of its scalar products (lattice of even size). -/
theorem C66_evenodd_force [∀ d, NeZero (L d)] (hL : ∀ d, Even (L d)) (bc : Fin n → Bool) (tmp tmp2 : Fin n → CField L N) (mass : ℝ)
    {U : ℝ → GField L N} {A : GField L N} (hU : LinkCurve U A) : ForceIsDerivative (diracStaggeredEO bc tmp tmp2 mass) U A := by
  have e3 : ∀ r : ℝ, star (r : ℂ) = r := fun r => Complex.conj_ofReal r
  have key : ∀ (s : ℤ), s * s = 1 → ∀ chi psi : CField L N, HasDerivAt (fun t => (cdotOn .even chi (stagEO bc tmp tmp2 mass (U t) psi s)).re)
      (pairM A (U 0) (stagEOForce bc tmp tmp2 mass (U 0) chi psi s)) 0 := by
    intro s hs chi psi
    have hsr : (s : ℂ) * (s : ℂ) = 1 := by exact_mod_cast hs
    let AU : GField L N := fun d x => A d x * U 0 d x
    refine HasDerivAt.congr_deriv (cdotOn_deriv .even chi _ (fun x => ((1 / mass : ℝ) : ℂ) • (hopAt bc AU (hopAt bc (U 0) psi) x + hopAt bc (U 0) (hopAt bc AU psi) x)) fun x i hx => ?_) ?_
    · have hd := hopAt_deriv bc hU (fun t => hopAt bc (U t) psi) (hopAt bc AU psi) (fun y j => hopAt_deriv_const bc hU psi y j) x i
      have hr : ((s * s / mass : ℝ) : ℂ) = ((1 / mass : ℝ) : ℂ) := by
        push_cast
        rw [hsr]
      have he : (fun t => stagEO bc tmp tmp2 mass (U t) psi s x i) = fun t => (mass : ℂ) * psi x i + ((1 / mass : ℝ) : ℂ) * hopAt bc (U t) (hopAt bc (U t) psi) x i := by
        funext t
        rw [eo_formula hL _ _ _ _ _ _ _ _ hx, hr]
        rfl
      rw [he]
      exact (hd.const_mul _).const_add _
    · have hodd : ∀ (tm : Fin n → CField L N) (f : CField L N) (r : ℤ) (y : PSite L), VisitsPar .odd y →
          stagDiagInv mass (stagHop bc tm (U 0) f (fun _ => 0) .odd r) .odd y = ((r / mass : ℝ) : ℂ) • hopAt bc (U 0) f y := by
        intro tm f r y hy
        unfold stagDiagInv assignOn
        rw [if_pos hy]
        beta_reduce
        rw [stagHop_eq (Or.inr hL), if_pos hy, zero_add, smul_smul]
        congr 1
        have e1 : (1.0 / mass : ℝ) = 1 / mass := by norm_num
        rw [e1]
        push_cast
        ring
      have hsum : pairM A (U 0) (stagEOForce bc tmp tmp2 mass (U 0) chi psi s) =
          pairM A (U 0) (stagCalcForce bc (stagDiagInv mass (stagHop bc tmp (U 0) chi (fun _ => 0) .odd (-s)) .odd) psi s .even) +
          pairM A (U 0) (stagCalcForce bc chi (stagDiagInv mass (stagHop bc tmp2 (U 0) psi (fun _ => 0) .odd s) .odd) s .odd) := by
        unfold pairM
        rw [← Finset.sum_add_distrib]
        refine Finset.sum_congr rfl fun d _ => ?_
        rw [← Finset.sum_add_distrib]
        refine Finset.sum_congr rfl fun x _ => ?_
        rw [← Complex.add_re, ← Matrix.trace_add, ← Matrix.mul_add]
        rfl
      rw [hsum, hop_force_val (Or.inr hL) bc hU, hop_force_val (Or.inr hL) bc hU]
      change _ = (cdotOn .odd _ _).re + (cdotOn .even _ _).re
      have h1 : cdotOn .odd (stagDiagInv mass (stagHop bc tmp (U 0) chi (fun _ => 0) .odd (-s)) .odd) (fun x => (s : ℂ) • hopAt bc AU psi x) =
          ((1 / mass : ℝ) : ℂ) * cdotOn .even chi (hopAt bc (U 0) (hopAt bc AU psi)) := by
        rw [cdotOn_congr (fun x hx => hodd tmp chi (-s) x hx) (fun x _ => rfl), cdotOn_smul_left, e3, cdotOn_smul, hop_anti_par (par := .even) (Or.inr hL)]
        change _ = _ * -cdotOn .odd _ _
        generalize cdotOn .odd (hopAt bc (U 0) chi) (hopAt bc AU psi) = Z
        have e4 : ((((-s : ℤ) : ℝ) / mass : ℝ) : ℂ) * ((s : ℂ) * Z) = -(((s : ℂ) * s) * (((1 / mass : ℝ) : ℂ) * Z)) := by
          push_cast
          ring
        rw [e4, hsr, one_mul, mul_neg]
      have h2 : cdotOn .even chi (fun x => (s : ℂ) • hopAt bc AU (stagDiagInv mass (stagHop bc tmp2 (U 0) psi (fun _ => 0) .odd s) .odd) x) =
          ((1 / mass : ℝ) : ℂ) * cdotOn .even chi (hopAt bc AU (hopAt bc (U 0) psi)) := by
        have h3 : ∀ x, VisitsPar .even x → (s : ℂ) • hopAt bc AU (stagDiagInv mass (stagHop bc tmp2 (U 0) psi (fun _ => 0) .odd s) .odd) x =
            ((1 / mass : ℝ) : ℂ) • hopAt bc AU (hopAt bc (U 0) psi) x := by
          intro x hx
          have h4 : hopAt bc AU (stagDiagInv mass (stagHop bc tmp2 (U 0) psi (fun _ => 0) .odd s) .odd) x =
              hopAt bc AU (((s / mass : ℝ) : ℂ) • hopAt bc (U 0) psi) x :=
            hopAt_congr bc AU x fun d => ⟨hodd tmp2 psi s _ ((visits_fwd (par := .even) (Or.inr hL) x d).2 hx),
              hodd tmp2 psi s _ ((visits_bwd (par := .even) (Or.inr hL) x d).2 hx)⟩
          rw [h4, hopAt_smul, smul_smul]
          congr 1
          push_cast
          rw [mul_div_assoc', hsr]
        rw [cdotOn_congr (fun x _ => rfl) h3, cdotOn_smul]
      have h5 := congrArg₂ (fun a b : ℂ => a.re + b.re) h1 h2
      refine Eq.trans ?_ h5.symm
      rw [cdotOn_smul, cdotOn_add, mul_add, Complex.add_re, add_comm]
  intro chi psi
  exact ⟨key 1 (by norm_num) chi psi, key (-1) (by norm_num) chi psi⟩

/-- A function on the integers modulo 4 that changes sign after two steps. -/
def quarter (z : ZMod 4) : ℂ := if z = 0 ∨ z = 1 then 1 else -1

theorem quarter_add (z : ZMod 4) : quarter (z + 2) = -quarter z ∧ quarter (z - 2) = -quarter z ∧ quarter z ≠ 0 := by
  have h : ∀ z : ZMod 4, ((z + 2 = 0 ∨ z + 2 = 1) ↔ ¬ (z = 0 ∨ z = 1)) ∧ ((z - 2 = 0 ∨ z - 2 = 1) ↔ ¬ (z = 0 ∨ z = 1)) := by decide
  unfold quarter
  simp only [(h z).1, (h z).2]
  by_cases h2 : z = 0 ∨ z = 1
  · simp [h2]
  · simp [h2]

/-- C66, the property does not hold for even-odd preconditioning: on every lattice of even size with one size divisible by 4, mass 1 and
unit links the preconditioned operator is singular at the even sites, although the full operator is invertible (`C66_normal`): the second
term has the wrong sign (staggered.h:239-256). -/
theorem C66_evenodd_wrong [∀ d, NeZero (L d)] (hL : ∀ d, Even (L d)) (d0 : Fin n) (h4 : 4 ∣ L d0) (hN : 0 < N) (tmp tmp2 : Fin n → CField L N) :
    (∃ psi : CField L N, psi 0 ≠ 0 ∧
      ∀ x, (∑ e, (x e).val) % 2 = 0 → (diracStaggeredEO (fun _ => false) tmp tmp2 1).apply (fun _ _ => 1) psi x = 0) ∧
    Function.Bijective ((diracStaggered (fun _ => false) tmp 1).apply (fun _ _ => (1 : Mat N))) := by
  refine ⟨?_, ((C66_normal _ tmp 1 _).2.2 one_ne_zero).1⟩
  let f : CField L N := fun x _ => quarter (ZMod.castHom h4 (ZMod 4) (x d0))
  refine ⟨f, ?_, fun x hx => ?_⟩
  · intro h
    have := congrFun h ⟨0, hN⟩
    exact (quarter_add _).2.2 this
  · have hs : ∀ (d : Fin n) (y : PSite L), bcSign (fun _ => false) d y = 1 := fun d y => by simp [bcSign]
    have hh : hopAt (fun _ => false) (fun _ _ => 1) (hopAt (fun _ => false) (fun _ _ => 1) f) x = -f x := by
      rw [hop_hop_free hL, Finset.sum_eq_single d0]
      · unfold diffD
        simp only [hs, one_smul, add_sub_cancel_right, sub_add_cancel]
        have e1 : f (x + unitStep d0 + unitStep d0) = -f x := by
          funext i
          change quarter (ZMod.castHom h4 (ZMod 4) (x d0 + (unitStep d0 : PSite L) d0 + (unitStep d0 : PSite L) d0)) = -quarter (ZMod.castHom h4 (ZMod 4) (x d0))
          have : (unitStep d0 : PSite L) d0 = 1 := by simp [unitStep]
          rw [this, map_add, map_add, map_one, add_assoc, one_add_one_eq_two, (quarter_add _).1]
        have e2 : f (x - unitStep d0 - unitStep d0) = -f x := by
          funext i
          change quarter (ZMod.castHom h4 (ZMod 4) (x d0 - (unitStep d0 : PSite L) d0 - (unitStep d0 : PSite L) d0)) = -quarter (ZMod.castHom h4 (ZMod 4) (x d0))
          have : (unitStep d0 : PSite L) d0 = 1 := by simp [unitStep]
          rw [this, map_sub, map_sub, map_one, sub_sub, one_add_one_eq_two, (quarter_add _).2.1]
        rw [e1, e2]
        funext i
        simp only [Pi.smul_apply, Pi.sub_apply, Pi.neg_apply, smul_eq_mul]
        ring
      · intro d _ hd
        have e1 : ∀ y, diffD (fun _ => false) d f y = 0 := by
          intro y
          unfold diffD
          rw [hs, hs, one_smul, one_smul]
          funext i
          change quarter (ZMod.castHom h4 (ZMod 4) (y d0 + (unitStep d : PSite L) d0)) - quarter (ZMod.castHom h4 (ZMod 4) (y d0 - (unitStep d : PSite L) d0)) = 0
          rw [unitStep_ne hd, add_zero, sub_zero, sub_self]
        have e2 : diffD (fun _ => false) d (diffD (fun _ => false) d f) x = 0 := by
          have e3 : diffD (fun _ => false) d f = fun _ => 0 := funext e1
          rw [e3]
          unfold diffD
          simp
        rw [e2, smul_zero]
      · simp
    change stagEO (fun _ => false) tmp tmp2 1 (fun _ _ => 1) f 1 x = 0
    rw [eo_formula hL _ _ _ _ _ _ _ _ hx, hh]
    norm_num

/-- Lattices as in the theorems. -/
example : ∃ L : Fin 4 → ℕ, (∀ d, Even (L d)) ∧ 4 ∣ L 3 ∧ ∀ d, L d ≠ 0 := ⟨fun d => if d = 3 then 8 else 2, by decide, by decide, by decide⟩

end Hila
