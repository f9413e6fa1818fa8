import Verif.Lemmas.BulkPrev

/-!
# C63: the bulk-preventing action

The action of a plaquette `P` is `Re tr((Ω†Ω)⁻²)/N - 1` with `Ω = (1 + P)/2`, which is arXiv:2306.14319 (B1) with n = 2.
-/

set_option linter.unusedSectionVars false

namespace Hila

open Matrix

variable {n : ℕ} {L : Fin n → ℕ} {N : ℕ}

/-- `(1 + P)/2`. -/
noncomputable def bpOmega (P : Mat N) : Mat N := (1 / 2 : ℂ) • (1 + P)

/-- The plaquette in the plane of `d1` and `d2`: the product of the links around it. -/
def plaqPath (U : GField L N) (d1 d2 : Fin n) (x : PSite L) : Mat N := pathM U [(d1, true), (d2, true), (d1, false), (d2, false)] x

theorem bpPlaq_eq (U : GField L N) (d1 d2 : Fin n) (x : PSite L) : bpPlaq U d1 d2 x = plaqPath U d1 d2 x := by
  simp only [bpPlaq, plaqPath, pathM, linkM, stepVec, if_true, Bool.false_eq_true, if_false, Matrix.mul_one, unitStep, Matrix.conjTranspose_mul]
  rw [show x + (Pi.single d1 1 : PSite L) + Pi.single d2 1 - Pi.single d1 1 = x + Pi.single d2 1 by abel,
    show x + (Pi.single d1 1 : PSite L) + Pi.single d2 1 + -Pi.single d1 1 - Pi.single d2 1 = x by abel]
  simp only [Matrix.mul_assoc]

/-! ### Inverse -/

/-- `ch_inv` is the inverse of every invertible matrix of any size; for a singular matrix it divides by zero. -/
theorem C63_inverse (hN : 0 < N) (M : Mat N) :
    (∀ B : Mat N, M * B = 1 → chInv M = some B) ∧ (M.det = 0 ↔ chInv M = none) := by
  rw [chInv_eq hN]
  constructor
  · intro B hB
    have h : M.det ≠ 0 := by
      intro h0
      have := congrArg Matrix.det hB
      rw [Matrix.det_mul, h0, zero_mul, Matrix.det_one] at this
      exact zero_ne_one this
    rw [if_neg h, Matrix.inv_eq_right_inv hB]
  · constructor
    · intro h; rw [if_pos h]
    · intro h
      by_contra h0
      rw [if_neg h0] at h
      exact absurd h (by simp)

theorem half_eq (P : Mat N) : (0.5 : ℂ) • (P + 1) = bpOmega P := by
  unfold bpOmega
  rw [add_comm]
  norm_num

theorem chInv_half (hN : 0 < N) (P : Mat N) : chInv ((0.5 : ℂ) • (P + 1)) = if (1 + P).det = 0 then none else some (bpA P) := by
  rw [half_eq, chInv_eq hN]
  unfold bpOmega
  simp only [half_det]
  rfl

theorem bpOsq_eq (hN : 0 < N) (P : Mat N) :
    bpOsq P = if (1 + P).det = 0 then none else some (bpA P * (bpA P)ᴴ * (bpA P * (bpA P)ᴴ)) := by
  unfold bpOsq
  rw [chInv_half hN]
  split_ifs <;> rfl

theorem bpUA_eq (hN : 0 < N) (P : Mat N) :
    bpUA P = if (1 + P).det = 0 then none else some (P * (bpA P * (bpA P)ᴴ) * (bpA P * (bpA P)ᴴ) * bpA P) := by
  unfold bpUA
  rw [chInv_half hN]
  split_ifs <;> rfl

theorem bpTr_spec (P : Mat N) : (((bpOmega P)ᴴ * bpOmega P)⁻¹ ^ 2).trace.re = bpTr P := by
  have h : ((bpOmega P)ᴴ * bpOmega P)⁻¹ = bpA P * (bpA P)ᴴ := by
    rw [Matrix.mul_inv_rev, ← Matrix.conjTranspose_nonsing_inv]
    rfl
  rw [h, pow_two]
  rfl

/-! ### Action -/

/-- No plaquette has the eigenvalue -1. -/
def NoBulk (U : GField L N) : Prop := ∀ d1 d2, d1 < d2 → ∀ x, (1 + plaqPath U d1 d2 x).det ≠ 0

theorem measureSBp_eq [∀ d, NeZero (L d)] (hN : 0 < N) (U : GField L N) (h : NoBulk U) :
    measureSBp U = some (∑ d1, ∑ d2, if d1 < d2 then ∑ x, (bpTr (plaqPath U d1 d2 x) / N - 1) else 0) := by
  unfold measureSBp
  simp only [bpPlaq_eq, bpOsq_eq hN]
  rw [if_pos]
  · congr 1
    refine Finset.sum_congr rfl fun d1 _ => Finset.sum_congr rfl fun d2 _ => ?_
    split_ifs with hd
    · refine Finset.sum_congr rfl fun x _ => ?_
      rw [if_neg (h d1 d2 hd x), Option.getD_some]
      norm_num [bpTr]
    · rfl
  · intro d1 d2 hd x
    rw [if_neg (h d1 d2 hd x)]
    simp

/-- The measured action. It is finite exactly if no plaquette has the eigenvalue -1. -/
theorem C63_action [∀ d, NeZero (L d)] (hN : 0 < N) (U : GField L N) :
    (NoBulk U → measureSBp U = some (∑ d1, ∑ d2, if d1 < d2 then
      ∑ x, ((((bpOmega (plaqPath U d1 d2 x))ᴴ * bpOmega (plaqPath U d1 d2 x))⁻¹ ^ 2).trace.re / N - 1) else 0)) ∧
    (measureSBp U = none ↔ ∃ d1 d2, d1 < d2 ∧ ∃ x, (1 + plaqPath U d1 d2 x).det = 0) := by
  constructor
  · intro h
    simp only [bpTr_spec]
    exact measureSBp_eq hN U h
  · constructor
    · intro h
      by_contra h'
      push Not at h'
      rw [measureSBp_eq hN U (fun d1 d2 hd x => h' d1 d2 hd x)] at h
      exact absurd h (by simp)
    · rintro ⟨d1, d2, hd, x, hx⟩
      unfold measureSBp
      rw [if_neg]
      intro h
      refine h d1 d2 hd x ?_
      rw [bpPlaq_eq, bpOsq_eq hN, if_pos hx]

/-! ### Bounds -/

theorem bpA_mul {P : Mat N} (h : (1 + P).det ≠ 0) : bpA P * bpOmega P = 1 ∧ bpOmega P * bpA P = 1 := by
  have hu : IsUnit (bpOmega P).det := isUnit_iff_ne_zero.2 fun h0 => h ((half_det P).1 h0)
  exact ⟨Matrix.nonsing_inv_mul _ hu, Matrix.mul_nonsing_inv _ hu⟩

theorem bpA_comm {P : Mat N} (h : (1 + P).det ≠ 0) : P * bpA P = bpA P * P := by
  obtain ⟨h1, h2⟩ := bpA_mul h
  have hc : P * bpOmega P = bpOmega P * P := by
    unfold bpOmega
    rw [Matrix.mul_smul, Matrix.smul_mul, Matrix.mul_add, Matrix.add_mul, Matrix.mul_one, Matrix.one_mul]
  calc P * bpA P = bpA P * bpOmega P * (P * bpA P) := by rw [h1, Matrix.one_mul]
    _ = bpA P * (bpOmega P * P) * bpA P := by simp only [Matrix.mul_assoc]
    _ = bpA P * P * (bpOmega P * bpA P) := by rw [← hc]; simp only [Matrix.mul_assoc]
    _ = bpA P * P := by rw [h2, Matrix.mul_one]

theorem bpA_star {P : Mat N} (h : (1 + P).det ≠ 0) (hP : P * Pᴴ = 1) : (bpA P)ᴴ = bpA P * P := by
  obtain ⟨h1, h2⟩ := bpA_mul h
  have hP' : Pᴴ * P = 1 := mul_eq_one_comm.1 hP
  have hO : (bpOmega P)ᴴ = Pᴴ * bpOmega P := by
    unfold bpOmega
    have hh : star (1 / 2 : ℂ) = 1 / 2 := by apply Complex.ext <;> simp
    rw [Matrix.conjTranspose_smul, hh, Matrix.mul_smul, Matrix.mul_add, hP', Matrix.mul_one, Matrix.conjTranspose_add, Matrix.conjTranspose_one, add_comm]
  have h3 : (bpA P)ᴴ * (Pᴴ * bpOmega P) = 1 := by
    rw [← hO, ← Matrix.conjTranspose_mul, h2, Matrix.conjTranspose_one]
  have h4 : (bpA P)ᴴ * Pᴴ = bpA P := by
    calc (bpA P)ᴴ * Pᴴ = (bpA P)ᴴ * Pᴴ * (bpOmega P * bpA P) := by rw [h2, Matrix.mul_one]
      _ = (bpA P)ᴴ * (Pᴴ * bpOmega P) * bpA P := by simp only [Matrix.mul_assoc]
      _ = bpA P := by rw [h3, Matrix.one_mul]
  calc (bpA P)ᴴ = (bpA P)ᴴ * (Pᴴ * P) := by rw [hP', Matrix.mul_one]
    _ = _ := by rw [← Matrix.mul_assoc, h4]

theorem bpA_add {P : Mat N} (h : (1 + P).det ≠ 0) (hP : P * Pᴴ = 1) : bpA P + (bpA P)ᴴ = 2 := by
  rw [bpA_star h hP]
  have h1 := (bpA_mul h).1
  unfold bpOmega at h1
  rw [Matrix.mul_smul, Matrix.mul_add, Matrix.mul_one] at h1
  have : bpA P + bpA P * P = (2 : ℂ) • ((1 / 2 : ℂ) • (bpA P + bpA P * P)) := by rw [smul_smul]; norm_num
  rw [this, h1]
  ext i j
  simp [Matrix.smul_apply, Matrix.ofNat_apply, Matrix.one_apply]

theorem sqNorm_trace' (F : Mat N) : (F * Fᴴ).trace.re = sqNorm F := by
  unfold sqNorm
  rw [Matrix.trace, Complex.re_sum]
  refine Finset.sum_congr rfl fun i _ => ?_
  rw [Matrix.diag_apply, Matrix.mul_apply, Complex.re_sum]
  refine Finset.sum_congr rfl fun j _ => ?_
  rw [Matrix.conjTranspose_apply, RCLike.star_def, Complex.mul_conj, Complex.ofReal_re]

theorem sqNorm_nonneg (F : Mat N) : 0 ≤ sqNorm F := Finset.sum_nonneg fun _ _ => Finset.sum_nonneg fun _ _ => Complex.normSq_nonneg _

theorem sqNorm_zero {F : Mat N} (h : sqNorm F = 0) : F = 0 := by
  ext i j
  have h1 := (Finset.sum_eq_zero_iff_of_nonneg fun i _ => Finset.sum_nonneg fun _ _ => Complex.normSq_nonneg _).1 h i (Finset.mem_univ _)
  have h2 := (Finset.sum_eq_zero_iff_of_nonneg fun _ _ => Complex.normSq_nonneg _).1 h1 j (Finset.mem_univ _)
  exact Complex.normSq_eq_zero.1 h2

/-- The Cayley transform. -/
theorem bpTr_cayley {P : Mat N} (h : (1 + P).det ≠ 0) (hP : P * Pᴴ = 1) :
    bpTr P = N + 2 * sqNorm (bpA P - 1) + sqNorm ((bpA P - 1) * (bpA P - 1)) := by
  obtain ⟨B, hB⟩ : ∃ B, B = bpA P - 1 := ⟨_, rfl⟩
  have hA : bpA P = 1 + B := by rw [hB]; abel
  have hs : Bᴴ = -B := by
    have := bpA_add h hP
    rw [hA, Matrix.conjTranspose_add, Matrix.conjTranspose_one] at this
    have h2 : Bᴴ + B = 0 := by
      have e : Bᴴ + B = (1 + B + (1 + Bᴴ)) - 2 := by rw [show (2 : Mat N) = 1 + 1 by norm_num]; abel
      rw [e, this, sub_self]
    exact eq_neg_of_add_eq_zero_left h2
  unfold bpTr
  rw [← hB, hA, Matrix.conjTranspose_add, Matrix.conjTranspose_one, hs, ← sqNorm_trace', ← sqNorm_trace', Matrix.conjTranspose_mul, hs]
  have e : (1 + B) * (1 + -B) * ((1 + B) * (1 + -B)) = 1 + ((B * -B) + (B * -B)) + B * B * (-B * -B) := by noncomm_ring
  rw [e, Matrix.trace_add, Matrix.trace_add, Matrix.trace_add, Matrix.trace_one, Fintype.card_fin]
  simp only [Complex.add_re, Complex.natCast_re]
  ring

/-- A matrix with an eigenvalue has at least its square as the square of its norm. -/
theorem sqNorm_eigen {F : Mat N} {v : Fin N → ℂ} (hv : v ≠ 0) {β : ℂ} (h : F *ᵥ v = β • v) : Complex.normSq β ≤ sqNorm F := by
  have hs : 0 < ∑ j, Complex.normSq (v j) := by
    obtain ⟨j, hj⟩ := Function.ne_iff.1 hv
    exact Finset.sum_pos' (fun _ _ => Complex.normSq_nonneg _) ⟨j, Finset.mem_univ _, Complex.normSq_pos.2 hj⟩
  have h1 : ∀ i, Complex.normSq (β * v i) ≤ (∑ j, Complex.normSq (F i j)) * ∑ j, Complex.normSq (v j) := by
    intro i
    have e : β * v i = ∑ j, F i j * v j := by
      have := congrFun h i
      simp only [Matrix.mulVec, dotProduct, Pi.smul_apply, smul_eq_mul] at this
      exact this.symm
    rw [e, Complex.normSq_eq_norm_sq]
    have h2 : ‖∑ j, F i j * v j‖ ≤ ∑ j, ‖F i j‖ * ‖v j‖ := (norm_sum_le _ _).trans (le_of_eq (Finset.sum_congr rfl fun j _ => norm_mul _ _))
    have h3 := Finset.sum_mul_sq_le_sq_mul_sq Finset.univ (fun j => ‖F i j‖) (fun j => ‖v j‖)
    simp only [← Complex.normSq_eq_norm_sq] at h3
    exact (pow_le_pow_left₀ (norm_nonneg _) h2 2).trans h3
  have h2 := Finset.sum_le_sum fun i (_ : i ∈ Finset.univ) => h1 i
  rw [← Finset.sum_mul] at h2
  simp only [map_mul, ← Finset.mul_sum] at h2
  exact le_of_mul_le_mul_right h2 hs

theorem plaqPath_unitary {U : GField L N} (hU : IsUnitaryField U) (d1 d2 : Fin n) (x : PSite L) : plaqPath U d1 d2 x * (plaqPath U d1 d2 x)ᴴ = 1 := by
  have h : plaqPath U d1 d2 x ∈ Matrix.unitaryGroup (Fin N) ℂ := by
    rw [← bpPlaq_eq]
    exact mul_mem (mul_mem (hU _ _) (hU _ _)) (Unitary.star_mem (mul_mem (hU _ _) (hU _ _)))
  have := Matrix.mem_unitaryGroup_iff.1 h
  rwa [Matrix.star_eq_conjTranspose] at this

/-- The term of a plaquette is not negative, and zero only if the plaquette is 1. -/
theorem C63_positive (hN : 0 < N) {P : Mat N} (hP : P ∈ Matrix.unitaryGroup (Fin N) ℂ) (h : (1 + P).det ≠ 0) :
    0 ≤ (((bpOmega P)ᴴ * bpOmega P)⁻¹ ^ 2).trace.re / N - 1 ∧
    ((((bpOmega P)ᴴ * bpOmega P)⁻¹ ^ 2).trace.re / N - 1 = 0 ↔ P = 1) := by
  have hP' : P * Pᴴ = 1 := by
    have := Matrix.mem_unitaryGroup_iff.1 hP
    rwa [Matrix.star_eq_conjTranspose] at this
  have hn : (0 : ℝ) < N := Nat.cast_pos.2 hN
  rw [bpTr_spec, bpTr_cayley h hP']
  have a1 := sqNorm_nonneg (bpA P - 1)
  have a2 := sqNorm_nonneg ((bpA P - 1) * (bpA P - 1))
  have e : (N + 2 * sqNorm (bpA P - 1) + sqNorm ((bpA P - 1) * (bpA P - 1))) / N - 1 =
      (2 * sqNorm (bpA P - 1) + sqNorm ((bpA P - 1) * (bpA P - 1))) / N := by field_simp; ring
  rw [e]
  refine ⟨by positivity, ?_, ?_⟩
  · intro h0
    rw [div_eq_zero_iff] at h0
    have h1 : sqNorm (bpA P - 1) = 0 := by
      rcases h0 with h0 | h0
      · linarith
      · exact absurd h0 hn.ne'
    have hA : bpA P = 1 := sub_eq_zero.1 (sqNorm_zero h1)
    have := bpA_star h hP'
    rw [hA, Matrix.conjTranspose_one, Matrix.one_mul] at this
    exact this.symm
  · rintro rfl
    have hA : bpA (1 : Mat N) = 1 := by
      have := (bpA_mul h).1
      have e1 : bpOmega (1 : Mat N) = 1 := by
        unfold bpOmega
        rw [← two_smul ℂ (1 : Mat N), smul_smul]
        norm_num
      rwa [e1, Matrix.mul_one] at this
    rw [hA, sub_self]
    simp [sqNorm]

/-- The barrier: if a plaquette has the eigenvalue `λ`, its term is at least `(16/|1+λ|⁴ - 1)/N`. -/
theorem C63_barrier (hN : 0 < N) {P : Mat N} (hP : P ∈ Matrix.unitaryGroup (Fin N) ℂ) (h : (1 + P).det ≠ 0) (v : Fin N → ℂ) (hv : v ≠ 0) (z : ℂ)
    (hz : P *ᵥ v = z • v) :
    (16 / ‖1 + z‖ ^ 4 - 1) / N ≤ (((bpOmega P)ᴴ * bpOmega P)⁻¹ ^ 2).trace.re / N - 1 := by
  have hP' : P * Pᴴ = 1 := by
    have := Matrix.mem_unitaryGroup_iff.1 hP
    rwa [Matrix.star_eq_conjTranspose] at this
  have hn : (0 : ℝ) < N := Nat.cast_pos.2 hN
  have hO : bpOmega P *ᵥ v = ((1 + z) / 2) • v := by
    unfold bpOmega
    rw [Matrix.smul_mulVec, Matrix.add_mulVec, Matrix.one_mulVec, hz]
    ext i
    simp only [Pi.smul_apply, Pi.add_apply, smul_eq_mul]
    ring
  have hz1 : 1 + z ≠ 0 := by
    intro h0
    have : bpA P *ᵥ (bpOmega P *ᵥ v) = 0 := by rw [hO, h0]; simp
    rw [Matrix.mulVec_mulVec, (bpA_mul h).1, Matrix.one_mulVec] at this
    exact hv this
  have hA : bpA P *ᵥ v = (2 / (1 + z)) • v := by
    have h1 : bpA P *ᵥ (bpOmega P *ᵥ v) = v := by rw [Matrix.mulVec_mulVec, (bpA_mul h).1, Matrix.one_mulVec]
    rw [hO, Matrix.mulVec_smul] at h1
    have h2 := congrArg (fun w => (2 / (1 + z)) • w) h1
    simp only [smul_smul] at h2
    rwa [show 2 / (1 + z) * ((1 + z) / 2) = 1 by field_simp, one_smul] at h2
  have hB : (bpA P - 1) *ᵥ v = (2 / (1 + z) - 1) • v := by
    rw [Matrix.sub_mulVec, hA, Matrix.one_mulVec, sub_smul, one_smul]
  have hBB : ((bpA P - 1) * (bpA P - 1)) *ᵥ v = ((2 / (1 + z) - 1) * (2 / (1 + z) - 1)) • v := by
    rw [← Matrix.mulVec_mulVec, hB, Matrix.mulVec_smul, hB, smul_smul]
  have b1 := sqNorm_eigen hv hB
  have b2 := sqNorm_eigen hv hBB
  rw [map_mul] at b2
  have hnz : ‖z‖ = 1 := by
    have hv2 : star v ⬝ᵥ (Pᴴ * P) *ᵥ v = star v ⬝ᵥ v := by rw [mul_eq_one_comm.1 hP', Matrix.one_mulVec]
    have e1 : star v ⬝ᵥ (Pᴴ * P) *ᵥ v = star (P *ᵥ v) ⬝ᵥ (P *ᵥ v) := by
      rw [Matrix.star_mulVec, ← Matrix.mulVec_mulVec, Matrix.dotProduct_mulVec]
    rw [e1, hz] at hv2
    have e2 : star (z • v) ⬝ᵥ (z • v) = (star z * z) * (star v ⬝ᵥ v) := by
      simp only [star_smul, smul_dotProduct, dotProduct_smul, smul_eq_mul, mul_assoc]
      ring
    rw [e2] at hv2
    have h0 : star v ⬝ᵥ v ≠ 0 := by
      intro h00
      apply hv
      have h01 := congrArg Complex.re h00
      simp only [dotProduct, Pi.star_apply, Complex.re_sum, Complex.star_def, Complex.zero_re] at h01
      have h02 : ∀ i, ((starRingEnd ℂ) (v i) * v i).re = Complex.normSq (v i) := fun i => by
        rw [mul_comm, Complex.mul_conj, Complex.ofReal_re]
      simp only [h02] at h01
      rw [Finset.sum_eq_zero_iff_of_nonneg fun i _ => Complex.normSq_nonneg _] at h01
      funext i
      exact Complex.normSq_eq_zero.1 (h01 i (Finset.mem_univ _))
    have h1 : star z * z = 1 := mul_right_cancel₀ h0 (by rw [hv2, one_mul])
    have h2 := congrArg norm h1
    rw [norm_mul, norm_star, norm_one] at h2
    nlinarith [norm_nonneg z]
  have hq : Complex.normSq (2 / (1 + z) - 1) = 4 / ‖1 + z‖ ^ 2 - 1 := by
    have hz2 : ‖1 + z‖ ^ 2 ≠ 0 := pow_ne_zero _ (norm_ne_zero_iff.2 hz1)
    rw [show 2 / (1 + z) - 1 = (1 - z) / (1 + z) by field_simp; ring, map_div₀, Complex.normSq_eq_norm_sq (1 + z), div_eq_iff hz2, sub_mul,
      div_mul_cancel₀ _ hz2, one_mul, ← Complex.normSq_eq_norm_sq, Complex.normSq_sub, Complex.normSq_add]
    have h3 : Complex.normSq z = 1 := by rw [Complex.normSq_eq_norm_sq, hnz, one_pow]
    rw [h3]
    simp
    ring
  rw [hq] at b1 b2
  rw [bpTr_spec, bpTr_cayley h hP']
  have e : (N + 2 * sqNorm (bpA P - 1) + sqNorm ((bpA P - 1) * (bpA P - 1))) / N - 1 =
      (2 * sqNorm (bpA P - 1) + sqNorm ((bpA P - 1) * (bpA P - 1))) / N := by field_simp; ring
  rw [e]
  refine div_le_div_of_nonneg_right ?_ hn.le
  have e4 : (16 : ℝ) / ‖1 + z‖ ^ 4 = (4 / ‖1 + z‖ ^ 2) ^ 2 := by rw [div_pow]; norm_num; rw [← pow_mul]
  rw [e4]
  nlinarith

/-! ### Gauge invariance -/

theorem plaqPath_gauge (U : GField L N) (g : PSite L → Mat N) (hg : IsGauge g) (d1 d2 : Fin n) (x : PSite L) :
    plaqPath (gaugeT g U) d1 d2 x = g x * plaqPath U d1 d2 x * (g x)ᴴ := by
  unfold plaqPath
  rw [C56_covariant U g hg]
  congr 3
  simp only [disp, stepVec, if_true, Bool.false_eq_true, if_false]
  abel_nf

theorem bpA_conj {g P : Mat N} (hg : g * gᴴ = 1) : bpA (g * P * gᴴ) = g * bpA P * gᴴ := by
  have hg' : gᴴ * g = 1 := mul_eq_one_comm.1 hg
  unfold bpA
  have e : (1 / 2 : ℂ) • (1 + g * P * gᴴ) = g * ((1 / 2 : ℂ) • (1 + P)) * gᴴ := by
    rw [Matrix.mul_smul, Matrix.smul_mul, Matrix.mul_add, Matrix.add_mul, Matrix.mul_one, hg]
  rw [e, Matrix.mul_inv_rev, Matrix.mul_inv_rev, Matrix.inv_eq_right_inv hg, Matrix.inv_eq_right_inv hg', Matrix.mul_assoc]

theorem bpTr_conj {g P : Mat N} (hg : g * gᴴ = 1) : bpTr (g * P * gᴴ) = bpTr P := by
  have hg' : gᴴ * g = 1 := mul_eq_one_comm.1 hg
  unfold bpTr
  rw [bpA_conj hg]
  generalize bpA P = A
  have e : g * A * gᴴ * (g * A * gᴴ)ᴴ = g * (A * Aᴴ) * gᴴ := by
    rw [Matrix.conjTranspose_mul, Matrix.conjTranspose_mul, Matrix.conjTranspose_conjTranspose]
    calc _ = g * A * (gᴴ * g) * Aᴴ * gᴴ := by simp only [Matrix.mul_assoc]
      _ = _ := by rw [hg', Matrix.mul_one]; simp only [Matrix.mul_assoc]
  rw [e]
  have e2 : g * (A * Aᴴ) * gᴴ * (g * (A * Aᴴ) * gᴴ) = g * (A * Aᴴ * (A * Aᴴ)) * gᴴ := by
    calc _ = g * (A * Aᴴ) * (gᴴ * g) * (A * Aᴴ) * gᴴ := by simp only [Matrix.mul_assoc]
      _ = _ := by rw [hg', Matrix.mul_one]; simp only [Matrix.mul_assoc]
  rw [e2, Matrix.trace_mul_comm, ← Matrix.mul_assoc, hg', Matrix.one_mul]

/-- The action is gauge invariant, also where it is not finite. -/
theorem C63_gauge [∀ d, NeZero (L d)] (hN : 0 < N) (U : GField L N) (g : PSite L → Mat N) (hg : IsGauge g) : measureSBp (gaugeT g U) = measureSBp U := by
  have hd : ∀ d1 d2 x, (1 + plaqPath (gaugeT g U) d1 d2 x).det = (1 + plaqPath U d1 d2 x).det := by
    intro d1 d2 x
    rw [plaqPath_gauge U g hg]
    have e : 1 + g x * plaqPath U d1 d2 x * (g x)ᴴ = g x * (1 + plaqPath U d1 d2 x) * (g x)ᴴ := by
      rw [Matrix.mul_add, Matrix.add_mul, Matrix.mul_one, hg.right]
    rw [e, Matrix.det_mul, Matrix.det_mul, mul_right_comm, ← Matrix.det_mul, hg.right, Matrix.det_one, one_mul]
  by_cases h : NoBulk U
  · have h' : NoBulk (gaugeT g U) := fun d1 d2 hlt x => by rw [hd]; exact h d1 d2 hlt x
    rw [measureSBp_eq hN U h, measureSBp_eq hN _ h']
    simp only [plaqPath_gauge U g hg, bpTr_conj (hg.right _)]
  · have hn : ∃ d1 d2, d1 < d2 ∧ ∃ x, (1 + plaqPath U d1 d2 x).det = 0 := by
      unfold NoBulk at h
      push Not at h
      exact h
    rw [(C63_action hN U).2.2 hn, (C63_action hN _).2.2]
    simpa only [hd] using hn

/-! ### Force -/

theorem dplaq_eq {U : GField L N} (hU : IsUnitaryField U) (A : GField L N) (hA : ∀ d x, (A d x)ᴴ = -A d x) (d1 d2 : Fin n) (x : PSite L) :
    dpathM A U [(d1, true), (d2, true), (d1, false), (d2, false)] x =
      A d1 x * plaqPath U d1 d2 x + U d1 x * A d2 (x + unitStep d1) * (U d1 x)ᴴ * plaqPath U d1 d2 x -
        plaqPath U d1 d2 x * (U d2 x * A d1 (x + unitStep d2) * (U d2 x)ᴴ) - plaqPath U d1 d2 x * A d2 x := by
  rw [← bpPlaq_eq]
  simp only [bpPlaq, dpathM, dlinkM, pathM, linkM, stepVec, if_true, Bool.false_eq_true, if_false, Matrix.mul_one, Matrix.mul_zero, add_zero, unitStep]
  rw [show x + (Pi.single d1 1 : PSite L) + Pi.single d2 1 - Pi.single d1 1 = x + Pi.single d2 1 by abel,
    show x + (Pi.single d1 1 : PSite L) + Pi.single d2 1 + -Pi.single d1 1 - Pi.single d2 1 = x by abel]
  have h1 := hU.left d1 x
  have h2 := hU.left d2 x
  simp only [Matrix.conjTranspose_mul, hA, Matrix.mul_neg, Matrix.neg_mul]
  have c1 : ∀ M, (U d1 x)ᴴ * (U d1 x * M) = M := fun M => by rw [← Matrix.mul_assoc, h1, Matrix.one_mul]
  have c2 : ∀ M, (U d2 x)ᴴ * (U d2 x * M) = M := fun M => by rw [← Matrix.mul_assoc, h2, Matrix.one_mul]
  simp only [Matrix.mul_assoc, c1, c2, Matrix.mul_add, Matrix.mul_neg]
  abel

/-- One plane. -/
theorem bpPlane_run [∀ d, NeZero (L d)] (hN : 0 < N) {U : GField L N} (hU : IsUnitaryField U) (h : NoBulk U) (teps : ℝ) (a K : AlgField L N)
    (p : Fin n × Fin n) (hp : p.1 < p.2) :
    ∃ K', bpPlane U teps K p = some K' ∧ pairK a K' = pairK a K + 2 * teps * ∑ x,
      (dpathM (fun d x => algMat (a d x)) U [(p.1, true), (p.2, true), (p.1, false), (p.2, false)] x *
        (bpA (plaqPath U p.1 p.2 x) * (bpA (plaqPath U p.1 p.2 x))ᴴ * (bpA (plaqPath U p.1 p.2 x) * (bpA (plaqPath U p.1 p.2 x))ᴴ) *
          bpA (plaqPath U p.1 p.2 x))).trace.re := by
  obtain ⟨d1, d2⟩ := p
  dsimp only at hp ⊢
  unfold bpPlane
  dsimp only
  simp only [bpPlaq_eq, bpUA_eq hN]
  rw [if_pos (fun x => by rw [if_neg (h d1 d2 hp x)]; simp)]
  refine ⟨_, rfl, ?_⟩
  obtain ⟨f, hf⟩ : ∃ f : PSite L → Mat N, f = fun x => plaqPath U d1 d2 x * (bpA (plaqPath U d1 d2 x) * (bpA (plaqPath U d1 d2 x))ᴴ) *
    (bpA (plaqPath U d1 d2 x) * (bpA (plaqPath U d1 d2 x))ᴴ) * bpA (plaqPath U d1 d2 x) := ⟨_, rfl⟩
  have hf' : ∀ x, (if (1 + plaqPath U d1 d2 x).det = 0 then none else some (plaqPath U d1 d2 x * (bpA (plaqPath U d1 d2 x) * (bpA (plaqPath U d1 d2 x))ᴴ) *
    (bpA (plaqPath U d1 d2 x) * (bpA (plaqPath U d1 d2 x))ᴴ) * bpA (plaqPath U d1 d2 x))).getD 0 = f x := by
    intro x
    rw [if_neg (h d1 d2 hp x), hf, Option.getD_some]
  simp only [hf']
  have hsplit : (fun d x => if d = d2 then (if d = d1 then K d x - projectScaled ((f (x - unitStep d2) * U d2 (x - unitStep d2))ᴴ * U d2 (x - unitStep d2) + f x) teps else K d x) -
      projectScaled ((U d1 (x - unitStep d1))ᴴ * f (x - unitStep d1) * U d1 (x - unitStep d1) - f x) teps
      else if d = d1 then K d x - projectScaled ((f (x - unitStep d2) * U d2 (x - unitStep d2))ᴴ * U d2 (x - unitStep d2) + f x) teps else K d x) =
      K + ((fun d x => if d = d1 then -projectScaled ((f (x - unitStep d2) * U d2 (x - unitStep d2))ᴴ * U d2 (x - unitStep d2) + f x) teps else 0) +
        fun d x => if d = d2 then -projectScaled ((U d1 (x - unitStep d1))ᴴ * f (x - unitStep d1) * U d1 (x - unitStep d1) - f x) teps else 0) := by
    funext d x
    exact nested_if _ _ _ _ _
  rw [hsplit, pairK_add, pairK_add, pairK_delta, pairK_delta]
  congr 1
  simp only [Pi.neg_apply, mul_neg, Finset.sum_neg_distrib, sum_coef hN, neg_neg]
  simp only [Matrix.mul_sub, Matrix.mul_add, Matrix.trace_sub, Matrix.trace_add, Complex.sub_re, Complex.add_re, mul_sub, mul_add, Finset.sum_sub_distrib,
    Finset.sum_add_distrib]
  rw [← sum_shift (unitStep d2) (fun x => 2 * teps * (algMat (a d1 x) * ((f (x - unitStep d2) * U d2 (x - unitStep d2))ᴴ * U d2 (x - unitStep d2))).trace.re),
    ← sum_shift (unitStep d1) (fun x => 2 * teps * (algMat (a d2 x) * ((U d1 (x - unitStep d1))ᴴ * f (x - unitStep d1) * U d1 (x - unitStep d1))).trace.re)]
  simp only [add_sub_cancel_right]
  rw [← Finset.sum_add_distrib, ← Finset.sum_sub_distrib, ← Finset.sum_add_distrib, Finset.mul_sum]
  refine Finset.sum_congr rfl fun x _ => ?_
  rw [dplaq_eq hU (fun d x => algMat (a d x)) (fun d x => algMat_star _)]
  have hP := plaqPath_unitary hU d1 d2 x
  have hnb := h d1 d2 hp x
  have hfx : f x = plaqPath U d1 d2 x * (bpA (plaqPath U d1 d2 x) * (bpA (plaqPath U d1 d2 x))ᴴ * (bpA (plaqPath U d1 d2 x) * (bpA (plaqPath U d1 d2 x))ᴴ) *
          bpA (plaqPath U d1 d2 x)) := by rw [hf]; simp only [Matrix.mul_assoc]
  have hc := bpA_comm hnb
  have hs := bpA_star hnb hP
  obtain ⟨G, hG⟩ : ∃ G, G = bpA (plaqPath U d1 d2 x) * (bpA (plaqPath U d1 d2 x))ᴴ * (bpA (plaqPath U d1 d2 x) * (bpA (plaqPath U d1 d2 x))ᴴ) *
          bpA (plaqPath U d1 d2 x) := ⟨_, rfl⟩
  rw [← hG] at hfx ⊢
  have hGc : G * plaqPath U d1 d2 x = plaqPath U d1 d2 x * G := by
    rw [hG, hs]
    have hc' : Commute (plaqPath U d1 d2 x) (bpA (plaqPath U d1 d2 x)) := hc
    have h1 : Commute (plaqPath U d1 d2 x) (bpA (plaqPath U d1 d2 x) * (bpA (plaqPath U d1 d2 x) * plaqPath U d1 d2 x)) :=
      hc'.mul_right (hc'.mul_right (Commute.refl _))
    exact ((h1.mul_right h1).mul_right hc').symm
  generalize plaqPath U d1 d2 x = P at *
  have t1 : (algMat (a d1 x) * P * G).trace = (algMat (a d1 x) * f x).trace := by rw [hfx, Matrix.mul_assoc]
  have t2 : (U d1 x * algMat (a d2 (x + unitStep d1)) * (U d1 x)ᴴ * P * G).trace = (algMat (a d2 (x + unitStep d1)) * ((U d1 x)ᴴ * f x * U d1 x)).trace := by
    have t := Matrix.trace_mul_comm (U d1 x) (algMat (a d2 (x + unitStep d1)) * (U d1 x)ᴴ * P * G)
    rw [hfx]
    simp only [Matrix.mul_assoc] at t ⊢
    rw [t]
  have t3 : (P * (U d2 x * algMat (a d1 (x + unitStep d2)) * (U d2 x)ᴴ) * G).trace.re = -(algMat (a d1 (x + unitStep d2)) * ((f x * U d2 x)ᴴ * U d2 x)).trace.re := by
    have e1 : (P * (U d2 x * algMat (a d1 (x + unitStep d2)) * (U d2 x)ᴴ) * G).trace = (algMat (a d1 (x + unitStep d2)) * ((U d2 x)ᴴ * f x * U d2 x)).trace := by
      have t := Matrix.trace_mul_comm (P * U d2 x) (algMat (a d1 (x + unitStep d2)) * (U d2 x)ᴴ * G)
      rw [hfx, ← hGc]
      simp only [Matrix.mul_assoc] at t ⊢
      rw [t]
    rw [e1, ← trace_conj_re]
    simp only [Matrix.conjTranspose_mul, Matrix.conjTranspose_conjTranspose, algMat_star, Matrix.mul_neg, Matrix.trace_neg, Complex.neg_re]
    have t := Matrix.trace_mul_comm (algMat (a d1 (x + unitStep d2))) ((U d2 x)ᴴ * (f x)ᴴ * U d2 x)
    simp only [Matrix.mul_assoc] at t ⊢
    rw [t]
  have t4 : (P * algMat (a d2 x) * G).trace = (algMat (a d2 x) * f x).trace := by
    have t := Matrix.trace_mul_comm P (algMat (a d2 x) * G)
    rw [hfx, ← hGc]
    simp only [Matrix.mul_assoc] at t ⊢
    rw [t]
  simp only [Matrix.sub_mul, Matrix.add_mul, Matrix.trace_sub, Matrix.trace_add, Complex.sub_re, Complex.add_re]
  rw [t1, t2, t3, t4]
  ring

theorem planes_lt (p : Fin n × Fin n) (h : p ∈ planes n) : p.1 < p.2 := by
  unfold planes at h
  simp only [List.mem_flatMap, List.mem_map, List.mem_filter, decide_eq_true_eq] at h
  obtain ⟨d1, -, d2, ⟨-, h⟩, rfl⟩ := h
  exact h

theorem bpForce_run [∀ d, NeZero (L d)] (hN : 0 < N) {U : GField L N} (hU : IsUnitaryField U) (h : NoBulk U) (eps : ℝ) (a K : AlgField L N) :
    ∃ F, forceBpAdd U K eps = some F ∧ pairK a F = pairK a K + 4 * eps * ∑ d1, ∑ d2, if d1 < d2 then ∑ x,
      (dpathM (fun d x => algMat (a d x)) U [(d1, true), (d2, true), (d1, false), (d2, false)] x *
        (bpA (plaqPath U d1 d2 x) * (bpA (plaqPath U d1 d2 x))ᴴ * (bpA (plaqPath U d1 d2 x) * (bpA (plaqPath U d1 d2 x))ᴴ) *
          bpA (plaqPath U d1 d2 x))).trace.re else 0 := by
  rw [← sum_planes fun p => ∑ x,
      (dpathM (fun d x => algMat (a d x)) U [(p.1, true), (p.2, true), (p.1, false), (p.2, false)] x *
        (bpA (plaqPath U p.1 p.2 x) * (bpA (plaqPath U p.1 p.2 x))ᴴ * (bpA (plaqPath U p.1 p.2 x) * (bpA (plaqPath U p.1 p.2 x))ᴴ) *
          bpA (plaqPath U p.1 p.2 x))).trace.re]
  unfold forceBpAdd
  have hl := planes_lt (n := n)
  generalize planes n = l at hl
  induction l generalizing K with
  | nil => exact ⟨K, rfl, by simp⟩
  | cons p l ih =>
    obtain ⟨K', h1, h2⟩ := bpPlane_run hN hU h (2.0 * eps) a K p (hl p List.mem_cons_self)
    obtain ⟨F, h3, h4⟩ := ih K' fun q hq => hl q (List.mem_cons_of_mem _ hq)
    refine ⟨F, ?_, ?_⟩
    · rw [List.foldlM_cons, h1]
      exact h3
    · rw [h4, h2, List.map_cons, List.sum_cons]
      norm_num
      ring

/-- The force is the gradient of the action, with the same factor as for the other actions, at every field where the action
is finite. -/
theorem C63_force [∀ d, NeZero (L d)] (hN : 0 < N) (U : ℝ → GField L N) (a : AlgField L N)
    (hU : LinkCurve U fun d x => expand (a d x)) (hu : IsUnitaryField (U 0)) (h : measureSBp (U 0) ≠ none) (eps : ℝ) (K : AlgField L N) :
    ∃ F, forceBp (U 0) eps = some F ∧ (∀ᶠ t in nhds 0, measureSBp (U t) ≠ none) ∧
      HasDerivAt (fun t => eps * (measureSBp (U t)).getD 0) (-(pairK a F) / (2 * N)) 0 ∧
      ∃ F', forceBpAdd (U 0) K eps = some F' ∧ pairK a F' = pairK a K + pairK a F := by
  have hnb : NoBulk (U 0) := by
    intro d1 d2 hd x h0
    exact h ((C63_action hN (U 0)).2.2 ⟨d1, d2, hd, x, h0⟩)
  simp only [expand_eq hN] at hU
  obtain ⟨F, h1, h2⟩ := bpForce_run hN hu hnb eps a (fun _ _ => 0)
  obtain ⟨F', h3, h4⟩ := bpForce_run hN hu hnb eps a K
  have z : pairK a (fun _ _ => (0 : Alg N)) = 0 := by simp [pairK]
  rw [z, zero_add] at h2
  have hev : ∀ᶠ t in nhds (0 : ℝ), NoBulk (U t) := by
    unfold NoBulk
    rw [Filter.eventually_all]
    intro d1
    rw [Filter.eventually_all]
    intro d2
    by_cases hd : d1 < d2
    · have : ∀ᶠ t in nhds (0 : ℝ), ∀ x, (1 + plaqPath (U t) d1 d2 x).det ≠ 0 := by
        rw [Filter.eventually_all]
        intro x
        have hc := ((MDeriv.const (1 : Mat N)).add (hU.path [(d1, true), (d2, true), (d1, false), (d2, false)] x)).det_continuous
        exact hc.eventually_ne (hnb d1 d2 hd x)
      exact this.mono fun t ht _ => ht
    · exact Filter.Eventually.of_forall fun t hd' => absurd hd' hd
  refine ⟨F, h1, hev.mono fun t ht => by rw [measureSBp_eq hN _ ht]; simp, ?_, F', h3, by rw [h4, h2]⟩
  have hs : HasDerivAt (fun t => ∑ d1, ∑ d2, if d1 < d2 then ∑ x, (bpTr (plaqPath (U t) d1 d2 x) / N - 1) else 0)
      (∑ d1, ∑ d2, if d1 < d2 then ∑ x, (-2 * (dpathM (fun d x => algMat (a d x)) (U 0) [(d1, true), (d2, true), (d1, false), (d2, false)] x *
        (bpA (plaqPath (U 0) d1 d2 x) * (bpA (plaqPath (U 0) d1 d2 x))ᴴ * (bpA (plaqPath (U 0) d1 d2 x) * (bpA (plaqPath (U 0) d1 d2 x))ᴴ) *
          bpA (plaqPath (U 0) d1 d2 x))).trace.re) / N else 0) 0 := by
    refine HasDerivAt.fun_sum fun d1 _ => HasDerivAt.fun_sum fun d2 _ => ?_
    split_ifs with hd
    · refine HasDerivAt.fun_sum fun x _ => ?_
      exact ((bpTr_deriv (hU.path _ x) (hnb d1 d2 hd x)).div_const _).sub_const _
    · exact hasDerivAt_const _ _
  refine HasDerivAt.congr_of_eventuallyEq ((hs.const_mul eps).congr_deriv ?_) (hev.mono fun t ht => ?_)
  · have hn : (N : ℝ) ≠ 0 := Nat.cast_ne_zero.2 (by omega)
    rw [h2]
    have e : ∀ d1 d2 : Fin n, (if d1 < d2 then ∑ x, (-2 * (dpathM (fun d x => algMat (a d x)) (U 0) [(d1, true), (d2, true), (d1, false), (d2, false)] x *
        (bpA (plaqPath (U 0) d1 d2 x) * (bpA (plaqPath (U 0) d1 d2 x))ᴴ * (bpA (plaqPath (U 0) d1 d2 x) * (bpA (plaqPath (U 0) d1 d2 x))ᴴ) *
          bpA (plaqPath (U 0) d1 d2 x))).trace.re) / N else 0) = (-2 / N) * if d1 < d2 then ∑ x, (dpathM (fun d x => algMat (a d x)) (U 0) [(d1, true), (d2, true), (d1, false), (d2, false)] x *
        (bpA (plaqPath (U 0) d1 d2 x) * (bpA (plaqPath (U 0) d1 d2 x))ᴴ * (bpA (plaqPath (U 0) d1 d2 x) * (bpA (plaqPath (U 0) d1 d2 x))ᴴ) *
          bpA (plaqPath (U 0) d1 d2 x))).trace.re else 0 := by
      intro d1 d2
      split_ifs
      · rw [Finset.mul_sum]
        exact Finset.sum_congr rfl fun x _ => by ring
      · rw [mul_zero]
    simp only [e, ← Finset.mul_sum]
    field_simp
    ring
  · dsimp only
    rw [measureSBp_eq hN _ ht, Option.getD_some]

/-- The force is not finite exactly if the action is not. -/
theorem C63_force_finite [∀ d, NeZero (L d)] (hN : 0 < N) (U : GField L N) (hu : IsUnitaryField U) (eps : ℝ) :
    forceBp U eps = none ↔ measureSBp U = none := by
  constructor
  · intro h
    by_contra h0
    have hnb : NoBulk U := fun d1 d2 hd x h1 => h0 ((C63_action hN U).2.2 ⟨d1, d2, hd, x, h1⟩)
    obtain ⟨F, h1, -⟩ := bpForce_run hN hu hnb eps (fun _ _ => 0) (fun _ _ => 0)
    unfold forceBp at h
    rw [h1] at h
    exact absurd h (by simp)
  · intro h
    obtain ⟨d1, d2, hd, x, hx⟩ := (C63_action hN U).2.1 h
    have hm : (d1, d2) ∈ planes n := by
      unfold planes
      simp only [List.mem_flatMap, List.mem_map, List.mem_filter, decide_eq_true_eq]
      exact ⟨d1, List.mem_finRange _, d2, ⟨List.mem_finRange _, hd⟩, rfl⟩
    have hstep : ∀ K, bpPlane U (2.0 * eps) K (d1, d2) = none := by
      intro K
      unfold bpPlane
      dsimp only
      rw [if_neg]
      intro h1
      refine h1 x ?_
      rw [bpPlaq_eq, bpUA_eq hN, if_pos hx]
    unfold forceBp forceBpAdd
    generalize planes n = l at hm
    generalize (fun _ _ => 0 : AlgField L N) = K
    induction l generalizing K with
    | nil => exact absurd hm List.not_mem_nil
    | cons p l ih =>
      rw [List.foldlM_cons]
      by_cases hp : p = (d1, d2)
      · rw [hp, hstep]; rfl
      · cases bpPlane U (2.0 * eps) K p with
        | none => rfl
        | some K' => exact ih ((List.mem_cons.1 hm).resolve_left fun h => hp h.symm) K'

/-! ### Examples -/

instance bpExNeZero : ∀ d, NeZero ((![3, 4] : Fin 2 → ℕ) d) := by intro d; fin_cases d <;> exact ⟨by norm_num⟩

/-- Links in SU(2), not all 1, with finite action and with a force. -/
noncomputable def bpEx : GField ![3, 4] 2 := fun d x => if d = 0 ∧ x = 0 then !![Complex.I, 0; 0, -Complex.I] else 1

theorem bpEx_plaq (x : PSite ![3, 4]) : plaqPath bpEx 0 1 x = 1 ∨ plaqPath bpEx 0 1 x = !![Complex.I, 0; 0, -Complex.I] ∨
    plaqPath bpEx 0 1 x = !![-Complex.I, 0; 0, Complex.I] := by
  rw [← bpPlaq_eq]
  have h1 : ∀ y, bpEx 1 y = 1 := fun y => by unfold bpEx; rw [if_neg (by simp)]
  unfold bpPlaq
  simp only [h1, Matrix.mul_one, Matrix.one_mul]
  by_cases hx : x = 0
  · have hy : x + unitStep 1 ≠ (0 : PSite ![3, 4]) := by
      rw [hx, zero_add]
      intro h
      have := congrFun h 1
      unfold unitStep at this
      rw [Pi.single_eq_same, Pi.zero_apply] at this
      revert this
      decide
    have e1 : bpEx 0 x = !![Complex.I, 0; 0, -Complex.I] := by unfold bpEx; rw [if_pos ⟨rfl, hx⟩]
    have e2 : bpEx 0 (x + unitStep 1) = 1 := by unfold bpEx; rw [if_neg fun h => hy h.2]
    rw [e1, e2]
    right; left
    simp
  · have e1 : bpEx 0 x = 1 := by unfold bpEx; rw [if_neg fun h => hx h.2]
    rw [e1]
    by_cases hy : x + unitStep 1 = (0 : PSite ![3, 4])
    · have e2 : bpEx 0 (x + unitStep 1) = !![Complex.I, 0; 0, -Complex.I] := by unfold bpEx; rw [if_pos ⟨rfl, hy⟩]
      rw [e2]
      right; right
      ext i j
      fin_cases i <;> fin_cases j <;> simp [Matrix.conjTranspose_apply]
    · have e2 : bpEx 0 (x + unitStep 1) = 1 := by unfold bpEx; rw [if_neg fun h => hy h.2]
      rw [e2]
      left; simp

theorem bpEx_noBulk : NoBulk bpEx := by
  intro d1 d2 hd x
  obtain ⟨rfl, rfl⟩ : d1 = 0 ∧ d2 = 1 := by
    fin_cases d1 <;> fin_cases d2 <;> first | exact ⟨rfl, rfl⟩ | exact absurd hd (by decide)
  have hI : (1 + Complex.I) * (1 + -Complex.I) ≠ 0 := by
    have : (1 + Complex.I) * (1 + -Complex.I) = 2 := by ring_nf; rw [Complex.I_sq]; norm_num
    rw [this]; norm_num
  rcases bpEx_plaq x with h | h | h
  · rw [h, Matrix.det_fin_two]; simp
  · rw [h, Matrix.det_fin_two]
    simpa using hI
  · rw [h, Matrix.det_fin_two]
    simpa [mul_comm] using hI

example : ∃ S, measureSBp bpEx = some S := by
  exact ⟨_, measureSBp_eq (by norm_num) bpEx bpEx_noBulk⟩

/-- Also the other case occurs: a plaquette -1. -/
example : ∃ U : GField ![3, 4] 2, IsUnitaryField U ∧ measureSBp U = none := by
  refine ⟨fun d x => if d = 0 ∧ x = 0 then -1 else 1, ?_, ?_⟩
  · intro d x
    dsimp only
    split_ifs
    · rw [Matrix.mem_unitaryGroup_iff]; simp
    · exact one_mem _
  · refine (C63_action (by norm_num) _).2.2 ⟨0, 1, by decide, 0, ?_⟩
    rw [← bpPlaq_eq]
    unfold bpPlaq
    have hy : (0 : PSite ![3, 4]) + unitStep 1 ≠ 0 := by
      rw [zero_add]
      intro h
      have := congrFun h 1
      unfold unitStep at this
      rw [Pi.single_eq_same, Pi.zero_apply] at this
      revert this
      decide
    rw [zero_add] at hy
    rw [Matrix.det_fin_two]
    simp [hy]

end Hila
