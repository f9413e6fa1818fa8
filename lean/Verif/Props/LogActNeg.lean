import Verif.Props.LogAct
import Mathlib.Analysis.SpecialFunctions.Trigonometric.Deriv

/-!
# Forces of log-clover action and topology suppression that are not the gradient: C65

Along a gauge transformation the actions are constant, so a gradient has no component there. The forces of the code have one: they use
`d log P = dP P†`, which is right in the trace with a matrix that commutes with `P`, but the sums that the code multiplies do not commute.
-/

set_option linter.unusedSectionVars false

namespace Hila

open Matrix
open scoped Matrix.Norms.L2Operator

variable {n : ℕ} {L : Fin n → ℕ} {N : ℕ}

/-! ### Unit quaternions as SU(2) matrices -/

/-- A quaternion as a 2×2 matrix. -/
noncomputable def quatM (a b c d : ℝ) : Mat 2 := !![(a : ℂ) + b * Complex.I, (c : ℂ) + d * Complex.I; -(c : ℂ) + d * Complex.I, (a : ℂ) - b * Complex.I]

theorem quatM_mul (a b c d a' b' c' d' : ℝ) : quatM a b c d * quatM a' b' c' d' =
    quatM (a * a' - b * b' - c * c' - d * d') (a * b' + b * a' + c * d' - d * c') (a * c' - b * d' + c * a' + d * b') (a * d' + b * c' - c * b' + d * a') := by
  unfold quatM
  ext i j
  fin_cases i <;> fin_cases j <;> simp [Matrix.mul_apply, Fin.sum_univ_two] <;> ring_nf <;> simp only [Complex.I_sq] <;> ring

theorem quatM_star (a b c d : ℝ) : (quatM a b c d)ᴴ = quatM a (-b) (-c) (-d) := by
  unfold quatM
  ext i j
  fin_cases i <;> fin_cases j <;> simp <;> ring

theorem quatM_add (a b c d a' b' c' d' : ℝ) : quatM a b c d + quatM a' b' c' d' = quatM (a + a') (b + b') (c + c') (d + d') := by
  unfold quatM
  ext i j
  fin_cases i <;> fin_cases j <;> simp <;> ring

theorem quatM_sub (a b c d a' b' c' d' : ℝ) : quatM a b c d - quatM a' b' c' d' = quatM (a - a') (b - b') (c - c') (d - d') := by
  unfold quatM
  ext i j
  fin_cases i <;> fin_cases j <;> simp <;> ring

theorem quatM_smul (r a b c d : ℝ) : (r : ℂ) • quatM a b c d = quatM (r * a) (r * b) (r * c) (r * d) := by
  unfold quatM
  ext i j
  fin_cases i <;> fin_cases j <;> simp <;> ring

theorem quatM_trace (a b c d : ℝ) : (quatM a b c d).trace.re = 2 * a := by
  unfold quatM
  simp [Matrix.trace, Fin.sum_univ_two]
  ring

theorem quatM_one : quatM 1 0 0 0 = 1 := by
  unfold quatM
  ext i j
  fin_cases i <;> fin_cases j <;> simp

theorem quatM_su {a b c d : ℝ} (h : a ^ 2 + b ^ 2 + c ^ 2 + d ^ 2 = 1) : quatM a b c d ∈ specialUnitaryGroup (Fin 2) ℂ := by
  rw [mem_specialUnitaryGroup_iff]
  refine ⟨?_, ?_⟩
  · rw [mem_unitaryGroup_iff, star_eq_conjTranspose, quatM_star, quatM_mul, ← quatM_one]
    congr 1 <;> linarith
  · have h' : ((a ^ 2 + b ^ 2 + c ^ 2 + d ^ 2 : ℝ) : ℂ) = 1 := by rw [h]; simp
    push_cast at h'
    unfold quatM
    rw [det_fin_two_of, ← h']
    ring_nf
    simp only [Complex.I_sq]
    ring

theorem quatM_alg (b c d : ℝ) : expand (project (quatM 0 b c d)) = quatM 0 b c d := by
  rw [expand_project (by norm_num), algPart, quatM_star, quatM_sub, show (1 / 2 : ℂ) = ((1 / 2 : ℝ) : ℂ) by push_cast; ring, quatM_smul]
  have : (quatM (1 / 2 * (0 - 0)) (1 / 2 * (b - -b)) (1 / 2 * (c - -c)) (1 / 2 * (d - -d))).trace = 0 := by
    unfold quatM
    simp [Matrix.trace, Fin.sum_univ_two]
  rw [this, zero_div, zero_smul, sub_zero]
  congr 1 <;> ring

theorem quatM_exp {b c d : ℝ} (h : b ^ 2 + c ^ 2 + d ^ 2 = 1) (θ : ℝ) : NormedSpace.exp (quatM 0 (θ * b) (θ * c) (θ * d)) =
    quatM (Real.cos θ) (Real.sin θ * b) (Real.sin θ * c) (Real.sin θ * d) := by
  obtain ⟨n, hn⟩ : ∃ n, n = quatM 0 b c d := ⟨_, rfl⟩
  have hnn : n * n = -1 := by
    rw [hn, quatM_mul, ← quatM_one, ← sub_eq_zero, sub_neg_eq_add, quatM_add]
    have : (quatM 0 0 0 0 : Mat 2) = 0 := by
      unfold quatM
      ext i j
      fin_cases i <;> fin_cases j <;> simp
    rw [← this]
    congr 1 <;> linarith
  have hc : Continuous (Complex.liftAux n hnn) := (Complex.liftAux n hnn).toLinearMap.continuous_of_finiteDimensional
  have h1 := NormedSpace.map_exp (Complex.liftAux n hnn) hc ((θ : ℂ) * Complex.I)
  rw [← Complex.exp_eq_exp_ℂ, Complex.liftAux_apply, Complex.liftAux_apply, Complex.exp_ofReal_mul_I_re, Complex.exp_ofReal_mul_I_im] at h1
  have e : ∀ r s : ℝ, algebraMap ℝ (Mat 2) r + s • n = quatM r (s * b) (s * c) (s * d) := by
    intro r s
    rw [hn]
    unfold quatM
    ext i j
    fin_cases i <;> fin_cases j <;> simp [Matrix.algebraMap_matrix_apply] <;> ring
  rw [e, e] at h1
  rw [h1]
  congr 2 <;> simp

theorem quatM_norm {b c d : ℝ} (h : b ^ 2 + c ^ 2 + d ^ 2 = 1) {θ : ℝ} (hθ : 0 ≤ θ) : ‖quatM 0 (θ * b) (θ * c) (θ * d)‖ = θ := by
  have h1 : quatM 0 b c d ∈ unitaryGroup (Fin 2) ℂ := (mem_specialUnitaryGroup_iff.1 (quatM_su (by linarith))).1
  have h2 : ‖quatM 0 b c d‖ = 1 := CStarRing.norm_of_mem_unitary h1
  have h3 := quatM_smul θ 0 b c d
  rw [mul_zero] at h3
  rw [← h3, norm_smul, h2, mul_one, Complex.norm_real, Real.norm_of_nonneg hθ]

/-- Logarithms of unit quaternions. -/
theorem quatM_log {lg : Mat 2 → Alg 2} {r : ℝ} (hlg : IsLog r lg) {b c d : ℝ} (h : b ^ 2 + c ^ 2 + d ^ 2 = 1) {θ : ℝ} (hθ : 0 ≤ θ) (hr : θ < r) :
    HasLog r (quatM (Real.cos θ) (Real.sin θ * b) (Real.sin θ * c) (Real.sin θ * d)) ∧
    expand (lg (quatM (Real.cos θ) (Real.sin θ * b) (Real.sin θ * c) (Real.sin θ * d))) = quatM 0 (θ * b) (θ * c) (θ * d) := by
  rw [← quatM_exp h, ← quatM_alg]
  have hn : ‖expand (project (quatM 0 (θ * b) (θ * c) (θ * d)))‖ < r := by rw [quatM_alg, quatM_norm h hθ]; exact hr
  exact ⟨⟨_, hn, rfl⟩, by rw [hlg _ hn]⟩

/-! ### Gauge transformations that depend on a parameter -/

/-- The derivative of a path along a constant gauge rotation. -/
theorem dpath_gauge {U : GField L N} (hU : IsUnitaryField U) (Ω : Mat N) (hΩ : Ωᴴ = -Ω) (l : List (PStep n)) (x : PSite L) :
    dpathM (fun d x => Ω - U d x * Ω * (U d x)ᴴ) U l x = Ω * pathM U l x - pathM U l x * Ω := by
  induction l generalizing x with
  | nil => simp [dpathM, pathM]
  | cons s l ih =>
    have e : ∀ d x, (Ω - U d x * Ω * (U d x)ᴴ) * U d x = Ω * U d x - U d x * Ω := by
      intro d x
      rw [Matrix.sub_mul, Matrix.mul_assoc (U d x * Ω), hU.left, Matrix.mul_one]
    have hs : dlinkM (fun d x => Ω - U d x * Ω * (U d x)ᴴ) U s x = Ω * linkM U s x - linkM U s x * Ω := by
      unfold dlinkM linkM
      split_ifs
      · exact e _ _
      · rw [e, conjTranspose_sub, conjTranspose_mul, conjTranspose_mul, hΩ, Matrix.mul_neg, Matrix.neg_mul]
        abel
    rw [dpathM, pathM, ih, hs, Matrix.sub_mul, Matrix.mul_sub]
    simp only [Matrix.mul_assoc]
    abel

/-- The rotation by the angle t. -/
noncomputable def rotM (b c d t : ℝ) : Mat 2 := quatM (Real.cos t) (Real.sin t * b) (Real.sin t * c) (Real.sin t * d)

theorem rotM_su {b c d : ℝ} (h : b ^ 2 + c ^ 2 + d ^ 2 = 1) (t : ℝ) : rotM b c d t ∈ specialUnitaryGroup (Fin 2) ℂ := by
  apply quatM_su
  have := Real.cos_sq_add_sin_sq t
  linear_combination this + Real.sin t ^ 2 * h

theorem rotM_zero (b c d : ℝ) : rotM b c d 0 = 1 := by
  unfold rotM
  rw [Real.cos_zero, Real.sin_zero, zero_mul, zero_mul, zero_mul, quatM_one]

theorem rotM_deriv (b c d : ℝ) : MDeriv (rotM b c d) (quatM 0 b c d) := by
  have hc : HasDerivAt (fun t : ℝ => ((Real.cos t : ℝ) : ℂ)) 0 0 := by
    have := (Real.hasDerivAt_cos 0).ofReal_comp
    simpa using this
  have hs : HasDerivAt (fun t : ℝ => ((Real.sin t : ℝ) : ℂ)) 1 0 := by
    have := (Real.hasDerivAt_sin 0).ofReal_comp
    simpa using this
  have key : ∀ r s : ℂ, HasDerivAt (fun t : ℝ => ((Real.cos t : ℝ) : ℂ) * r + ((Real.sin t : ℝ) : ℂ) * s) s 0 := by
    intro r s
    refine ((hc.mul_const r).add (hs.mul_const s)).congr_deriv ?_
    simp
  intro i j
  unfold rotM quatM
  fin_cases i <;> fin_cases j
  · have := key 1 (b * Complex.I); simp; convert this using 2 <;> push_cast <;> ring
  · have := key 0 (c + d * Complex.I); simp; convert this using 2 <;> push_cast <;> ring
  · have := key 0 (-c + d * Complex.I); simp; convert this using 2 <;> push_cast <;> ring
  · have := key 1 (-(b * Complex.I)); simp; convert this using 2 <;> push_cast <;> ring

theorem gauge_curve {V : GField L 2} (hV : IsSUField V) {b c d : ℝ} (h : b ^ 2 + c ^ 2 + d ^ 2 = 1) :
    ∃ a : AlgField L 2, (∀ e x, algMat (a e x) = quatM 0 b c d - V e x * quatM 0 b c d * (V e x)ᴴ) ∧
      LinkCurve (fun t => gaugeT (fun _ => rotM b c d t) V) (fun e x => expand (a e x)) ∧ ∀ t, IsSUField (gaugeT (fun _ => rotM b c d t) V) := by
  have hN : 0 < 2 := by norm_num
  have hA : ∀ e x, expand (project (quatM 0 b c d - V e x * quatM 0 b c d * (V e x)ᴴ)) = quatM 0 b c d - V e x * quatM 0 b c d * (V e x)ᴴ := by
    intro e x
    have h1 := rot_alg hN (hV.unitary e x) (project (quatM 0 b c d))
    rw [quatM_alg] at h1
    rw [expand_project hN]
    have e2 : ∀ A B : Mat 2, algPart (A - B) = algPart A - algPart B := by
      intro A B
      have := algPart_add A ((-1 : ℝ) • B)
      have h3 := algPart_smul (-1) B
      simp only [Complex.ofReal_neg, Complex.ofReal_one, neg_smul, one_smul] at this h3
      rw [← sub_eq_add_neg, h3, ← sub_eq_add_neg] at this
      exact this
    rw [e2, ← expand_project hN, quatM_alg, ← expand_project hN, ← h1]
  refine ⟨fun e x => project (quatM 0 b c d - V e x * quatM 0 b c d * (V e x)ᴴ), fun e x => by rw [← expand_eq hN, hA], ?_, ?_⟩
  · intro e x
    beta_reduce
    rw [hA]
    have h1 := ((rotM_deriv b c d).mul (MDeriv.const (V e x))).mul (rotM_deriv b c d).star
    have hs : (quatM 0 b c d)ᴴ = -quatM 0 b c d := by
      rw [← quatM_alg, expand_star hN]
    have e1 : gaugeT (fun _ => rotM b c d 0) V e x = V e x := by
      rw [gaugeT_apply, rotM_zero, Matrix.one_mul, conjTranspose_one, Matrix.mul_one]
    have e2 : (quatM 0 b c d - V e x * quatM 0 b c d * (V e x)ᴴ) * V e x = quatM 0 b c d * V e x - V e x * quatM 0 b c d := by
      rw [Matrix.sub_mul, Matrix.mul_assoc (V e x * _), hV.unitary.left, Matrix.mul_one]
    rw [e1, e2]
    simp only [rotM_zero, Matrix.mul_zero, add_zero, conjTranspose_one, Matrix.mul_one, Matrix.one_mul, hs, Matrix.mul_neg, ← sub_eq_add_neg] at h1
    exact h1
  · intro t e x
    exact mul_mem (mul_mem (rotM_su h t) (hV e x)) (su_star (rotM_su h t))

/-! ### Log-clover action -/

/-- A constant field in two dimensions. -/
noncomputable def cloverV {L : Fin 2 → ℕ} : GField L 2 := fun d _ => if d = 0 then quatM (1 / 2) (1 / 2) (1 / 2) (1 / 2) else quatM (1 / 2) (1 / 2) (-(1 / 2)) (1 / 2)

theorem cloverV_su {L : Fin 2 → ℕ} : IsSUField (cloverV (L := L)) := by
  intro d x
  unfold cloverV
  split_ifs <;> exact quatM_su (by norm_num)

theorem pi_half_lt : Real.pi / 2 < √3 := by
  have h1 := Real.pi_lt_d2
  have h2 : (1.6 : ℝ) < √3 := by
    rw [Real.lt_sqrt (by norm_num)]
    norm_num
  linarith

theorem cloverV_plaq {L : Fin 2 → ℕ} (x : PSite L) : pathM cloverV [(0, true), (1, true), (0, false), (1, false)] x = quatM 0 0 1 0 := by
  rw [leaf0]
  simp only [cloverV, if_true, show (1 : Fin 2) ≠ 0 from by decide, if_false, quatM_star, quatM_mul]
  norm_num

theorem cloverV_leaf1 {L : Fin 2 → ℕ} (x : PSite L) : pathM cloverV [(1, true), (0, false), (1, false), (0, true)] x = quatM 0 1 0 0 := by
  rw [leaf1]
  simp only [cloverV, if_true, show (1 : Fin 2) ≠ 0 from by decide, if_false, quatM_star, quatM_mul]
  norm_num

theorem cloverV_leaf2 {L : Fin 2 → ℕ} (x : PSite L) : pathM cloverV [(0, false), (1, false), (0, true), (1, true)] x = quatM 0 0 (-1) 0 := by
  rw [leaf2]
  simp only [cloverV, if_true, show (1 : Fin 2) ≠ 0 from by decide, if_false, quatM_star, quatM_mul]
  norm_num

theorem cloverV_leaf3 {L : Fin 2 → ℕ} (x : PSite L) : pathM cloverV [(1, false), (0, true), (1, true), (0, false)] x = quatM 0 0 0 (-1) := by
  rw [leaf3]
  simp only [cloverV, if_true, show (1 : Fin 2) ≠ 0 from by decide, if_false, quatM_star, quatM_mul]
  norm_num

theorem log_J {lg : Mat 2 → Alg 2} (hlg : IsLog √3 lg) : HasLog √3 (quatM 0 0 1 0) ∧ expand (lg (quatM 0 0 1 0)) = quatM 0 0 (Real.pi / 2) 0 := by
  have := quatM_log hlg (b := 0) (c := 1) (d := 0) (by norm_num) (θ := Real.pi / 2) (by positivity) pi_half_lt
  rw [Real.cos_pi_div_two, Real.sin_pi_div_two] at this
  simpa using this

theorem cloverV_logs {L : Fin 2 → ℕ} {lg : Mat 2 → Alg 2} (hlg : IsLog √3 lg) : HasLogs √3 (cloverV (L := L)) := by
  intro d1 d2 hd x
  have h1 : d1 = 0 := by omega
  have h2 : d2 = 1 := by omega
  subst h1 h2
  rw [cloverV_plaq]
  exact (log_J hlg).1

/-- The force of the log-clover action is not its gradient. -/
theorem C65_clover_force_wrong (L : Fin 2 → ℕ) [∀ d, NeZero (L d)] (lg : Mat 2 → Alg 2) (hlg : IsLog √3 lg) :
    ∃ (U : ℝ → GField L 2) (a : AlgField L 2), LinkCurve U (fun d x => expand (a d x)) ∧ (∀ t, IsSUField (U t)) ∧ HasLogs √3 (U 0) ∧
      HasDerivAt (fun t => measureSLog lg (U t)) 0 0 ∧ pairK a (forceLog lg (U 0) 1) ≠ 0 := by
  have hN : 0 < 2 := by norm_num
  obtain ⟨a, ha, hc, hu⟩ := gauge_curve (cloverV_su (L := L)) (b := 0) (c := 0) (d := 1) (by norm_num)
  have h0 : gaugeT (fun _ => rotM 0 0 1 0) cloverV = (cloverV : GField L 2) := by
    funext e x
    rw [gaugeT_apply, rotM_zero, Matrix.one_mul, conjTranspose_one, Matrix.mul_one]
  refine ⟨fun t => gaugeT (fun _ => rotM 0 0 1 t) cloverV, a, hc, hu, ?_, ?_, ?_⟩
  · beta_reduce
    rw [h0]
    exact cloverV_logs hlg
  · have e : (fun t => measureSLog lg (gaugeT (fun _ => rotM 0 0 1 t) (cloverV : GField L 2))) = fun _ => measureSLog lg (cloverV : GField L 2) := by
      funext t
      exact (C65_gauge hN lg hlg _ cloverV_su.unitary (cloverV_logs hlg) _ (fun x => (mem_specialUnitaryGroup_iff.1 (rotM_su (by norm_num) t)).1)).2
    rw [e]
    exact hasDerivAt_const _ _
  · beta_reduce
    rw [h0]
    unfold forceLog
    rw [logClover_run hN lg cloverV_su, show pairK a (fun _ _ => (0 : Alg 2)) = 0 by simp [pairK], zero_add]
    have hC : ∀ x, logCloverMat lg (cloverV : GField L 2) 0 1 x = quatM 0 (Real.pi / 8) 0 (-(Real.pi / 8)) := by
      intro x
      have hp := fun x => (C65_plaq_mat lg (cloverV : GField L 2) 0 1 x).trans (by rw [cloverV_plaq, (log_J hlg).2])
      unfold logPlaqMat at hp
      unfold logCloverMat
      dsimp only
      simp only [hp]
      simp only [cloverV, if_true, show (1 : Fin 2) ≠ 0 from by decide, if_false, quatM_star, quatM_mul, quatM_add,
        show (0.25 : ℂ) = ((1 / 4 : ℝ) : ℂ) by push_cast; norm_num, quatM_smul]
      congr 1 <;> ring
    have hs : (quatM 0 0 0 1)ᴴ = -quatM 0 0 0 1 := by
      rw [← quatM_alg, expand_star hN]
    have hA : (fun d x => algMat (a d x)) = fun d x => quatM 0 0 0 1 - cloverV d x * quatM 0 0 0 1 * ((cloverV : GField L 2) d x)ᴴ := by
      funext d x
      exact ha d x
    simp only [Fin.sum_univ_two, show ((0 : Fin 2) < 0) = False from by decide, show ((0 : Fin 2) < 1) = True from by decide,
      show ((1 : Fin 2) < 0) = False from by decide, show ((1 : Fin 2) < 1) = False from by decide, if_true, if_false, zero_add, add_zero]
    rw [hA]
    simp only [dpath_gauge cloverV_su.unitary _ hs, hC, Fin.sum_univ_four]
    simp only [leafPath, cons_val, cloverV_plaq, cloverV_leaf1, cloverV_leaf2, cloverV_leaf3]
    simp only [quatM_star, quatM_mul, quatM_sub, quatM_trace, Finset.sum_const, Finset.card_univ, nsmul_eq_mul]
    norm_num
    refine ⟨⟨NeZero.ne _, NeZero.ne _⟩, fun h => ?_⟩
    have := Real.pi_pos
    linarith

/-! ### Topology suppression -/

/-- A constant field in four dimensions. -/
noncomputable def topoV {L : Fin 4 → ℕ} : GField L 2 := fun d _ =>
  ![quatM 0 1 0 0, quatM (√2 / 2) (√2 / 2) 0 0, quatM (√2 / 2) 0 (√2 / 2) 0, quatM (√2 / 2) 0 (-(√2 / 2)) 0] d

theorem sq_half : √2 / 2 * (√2 / 2) = 1 / 2 := by
  have := Real.mul_self_sqrt (show (0 : ℝ) ≤ 2 by norm_num)
  linarith

theorem topoV_su {L : Fin 4 → ℕ} : IsSUField (topoV (L := L)) := by
  have := sq_half
  intro d x
  unfold topoV
  fin_cases d <;> exact quatM_su (by nlinarith)

theorem topoV_plaq {L : Fin 4 → ℕ} (x : PSite L) : pathM topoV [(0, true), (1, true), (0, false), (1, false)] x = quatM 1 0 0 0 ∧
    pathM topoV [(0, true), (2, true), (0, false), (2, false)] x = quatM 0 0 (-1) 0 ∧
    pathM topoV [(0, true), (3, true), (0, false), (3, false)] x = quatM 0 0 1 0 ∧
    pathM topoV [(1, true), (2, true), (1, false), (2, false)] x = quatM (1 / 2) (1 / 2) (-(1 / 2)) (1 / 2) ∧
    pathM topoV [(1, true), (3, true), (1, false), (3, false)] x = quatM (1 / 2) (1 / 2) (1 / 2) (-(1 / 2)) ∧
    pathM topoV [(2, true), (3, true), (2, false), (3, false)] x = quatM 1 0 0 0 := by
  obtain ⟨s, hs⟩ : ∃ s, s = √2 / 2 := ⟨_, rfl⟩
  have h2 := sq_half
  rw [← hs] at h2
  have h4 : s ^ 2 = 1 / 2 := by rw [pow_two, h2]
  have h5 : s ^ 4 = 1 / 4 := by rw [show s ^ 4 = (s ^ 2) ^ 2 by ring, h4]; norm_num
  simp only [leaf0]
  unfold topoV
  rw [← hs]
  simp only [cons_val, quatM_star, quatM_mul]
  refine ⟨?_, ?_, ?_, ?_, ?_, ?_⟩ <;> congr 1 <;> ring_nf <;> (try rw [h4]) <;> (try rw [h5]) <;> norm_num

theorem log_one {lg : Mat 2 → Alg 2} (hlg : IsLog √3 lg) : HasLog √3 (quatM 1 0 0 0) ∧ expand (lg (quatM 1 0 0 0)) = quatM 0 0 0 0 := by
  have := quatM_log hlg (b := 0) (c := 1) (d := 0) (by norm_num) (θ := 0) le_rfl (by positivity)
  rw [Real.cos_zero, Real.sin_zero] at this
  simpa using this

theorem log_J' {lg : Mat 2 → Alg 2} (hlg : IsLog √3 lg) : HasLog √3 (quatM 0 0 (-1) 0) ∧ expand (lg (quatM 0 0 (-1) 0)) = quatM 0 0 (-(Real.pi / 2)) 0 := by
  have := quatM_log hlg (b := 0) (c := -1) (d := 0) (by norm_num) (θ := Real.pi / 2) (by positivity) pi_half_lt
  rw [Real.cos_pi_div_two, Real.sin_pi_div_two] at this
  simpa using this

theorem log_third {lg : Mat 2 → Alg 2} (hlg : IsLog √3 lg) {b c d : ℝ} (hb : b ^ 2 = 1) (hc : c ^ 2 = 1) (hd : d ^ 2 = 1) :
    HasLog √3 (quatM (1 / 2) (b / 2) (c / 2) (d / 2)) ∧
    expand (lg (quatM (1 / 2) (b / 2) (c / 2) (d / 2))) = quatM 0 (Real.pi / (3 * √3) * b) (Real.pi / (3 * √3) * c) (Real.pi / (3 * √3) * d) := by
  have h3 : (√3) ^ 2 = 3 := Real.sq_sqrt (by norm_num)
  have h0 : √3 ≠ 0 := by positivity
  have := quatM_log hlg (b := b / √3) (c := c / √3) (d := d / √3) (by rw [div_pow, div_pow, div_pow, h3, hb, hc, hd]; norm_num) (θ := Real.pi / 3) (by positivity)
    (by have := pi_half_lt; have := Real.pi_pos; linarith)
  rw [Real.cos_pi_div_three, Real.sin_pi_div_three] at this
  have e : ∀ b : ℝ, √3 / 2 * (b / √3) = b / 2 := by intro b; field_simp
  have e' : ∀ b : ℝ, Real.pi / 3 * (b / √3) = Real.pi / (3 * √3) * b := by intro b; field_simp
  rwa [e, e, e, e', e', e'] at this

theorem topoV_logs {L : Fin 4 → ℕ} {lg : Mat 2 → Alg 2} (hlg : IsLog √3 lg) (x : PSite L) :
    plaqLog lg topoV 0 1 x = quatM 0 0 0 0 ∧ plaqLog lg topoV 0 2 x = quatM 0 0 (-(Real.pi / 2)) 0 ∧ plaqLog lg topoV 0 3 x = quatM 0 0 (Real.pi / 2) 0 ∧
    plaqLog lg topoV 1 2 x = quatM 0 (Real.pi / (3 * √3)) (-(Real.pi / (3 * √3))) (Real.pi / (3 * √3)) ∧
    plaqLog lg topoV 1 3 x = quatM 0 (Real.pi / (3 * √3)) (Real.pi / (3 * √3)) (-(Real.pi / (3 * √3))) ∧ plaqLog lg topoV 2 3 x = quatM 0 0 0 0 := by
  obtain ⟨h1, h2, h3, h4, h5, h6⟩ := topoV_plaq x
  have t1 := (log_third hlg (b := 1) (c := -1) (d := 1) (by norm_num) (by norm_num) (by norm_num)).2
  have t2 := (log_third hlg (b := 1) (c := 1) (d := -1) (by norm_num) (by norm_num) (by norm_num)).2
  simp only [neg_div, mul_one, mul_neg] at t1 t2
  unfold plaqLog
  rw [h1, h2, h3, h4, h5, h6]
  exact ⟨(log_one hlg).2, (log_J' hlg).2, (log_J hlg).2, t1, t2, (log_one hlg).2⟩

theorem topoV_hasLogs {L : Fin 4 → ℕ} {lg : Mat 2 → Alg 2} (hlg : IsLog √3 lg) : HasLogs √3 (topoV (L := L)) := by
  intro d1 d2 hd x
  obtain ⟨h1, h2, h3, h4, h5, h6⟩ := topoV_plaq x
  have t1 := (log_third hlg (b := 1) (c := -1) (d := 1) (by norm_num) (by norm_num) (by norm_num)).1
  have t2 := (log_third hlg (b := 1) (c := 1) (d := -1) (by norm_num) (by norm_num) (by norm_num)).1
  simp only [neg_div] at t1 t2
  fin_cases d1 <;> fin_cases d2 <;> first | exact absurd hd (by decide) | skip
  · show HasLog √3 (pathM topoV [(0, true), (1, true), (0, false), (1, false)] x)
    rw [h1]; exact (log_one hlg).1
  · show HasLog √3 (pathM topoV [(0, true), (2, true), (0, false), (2, false)] x)
    rw [h2]; exact (log_J' hlg).1
  · show HasLog √3 (pathM topoV [(0, true), (3, true), (0, false), (3, false)] x)
    rw [h3]; exact (log_J hlg).1
  · show HasLog √3 (pathM topoV [(1, true), (2, true), (1, false), (2, false)] x)
    rw [h4]; exact t1
  · show HasLog √3 (pathM topoV [(1, true), (3, true), (1, false), (3, false)] x)
    rw [h5]; exact t2
  · show HasLog √3 (pathM topoV [(2, true), (3, true), (2, false), (3, false)] x)
    rw [h6]; exact (log_one hlg).1

/-- The force of the topology suppression is not the gradient of its action. -/
theorem C65_topo_force_wrong (L : Fin 4 → ℕ) [∀ d, NeZero (L d)] (lg : Mat 2 → Alg 2) (hlg : IsLog √3 lg) :
    ∃ (U : ℝ → GField L 2) (a : AlgField L 2), LinkCurve U (fun d x => expand (a d x)) ∧ (∀ t, IsSUField (U t)) ∧ HasLogs √3 (U 0) ∧
      (∀ t, measureSTopoSupp lg (U t) = measureSTopoSupp lg (U 0)) ∧ ∃ F, forceTopoSupp lg (U 0) 1 = some F ∧ pairK a F ≠ 0 := by
  have hN : 0 < 2 := by norm_num
  obtain ⟨a, ha, hc, hu⟩ := gauge_curve (topoV_su (L := L)) (b := 1) (c := 0) (d := 0) (by norm_num)
  have h0 : gaugeT (fun _ => rotM 1 0 0 0) topoV = (topoV : GField L 2) := by
    funext e x
    rw [gaugeT_apply, rotM_zero, Matrix.one_mul, conjTranspose_one, Matrix.mul_one]
  refine ⟨fun t => gaugeT (fun _ => rotM 1 0 0 t) topoV, a, hc, hu, ?_, ?_, ?_⟩
  · beta_reduce
    rw [h0]
    exact topoV_hasLogs hlg
  · intro t
    beta_reduce
    rw [h0]
    exact C65_topo_gauge hN lg hlg _ topoV_su.unitary (topoV_hasLogs hlg) _ (fun x => (mem_specialUnitaryGroup_iff.1 (rotM_su (by norm_num) t)).1)
  · beta_reduce
    rw [h0]
    obtain ⟨F, hF, hp⟩ := topo_run hN lg (topoV_su (L := L)) 1 a (fun _ _ => 0)
    refine ⟨F, hF, ?_⟩
    rw [hp, show pairK a (fun _ _ => (0 : Alg 2)) = 0 by simp [pairK], zero_add]
    have hs : (quatM 0 1 0 0)ᴴ = -quatM 0 1 0 0 := by
      rw [← quatM_alg, expand_star hN]
    have hA : (fun d x => algMat (a d x)) = fun d x => quatM 0 1 0 0 - topoV d x * quatM 0 1 0 0 * ((topoV : GField L 2) d x)ᴴ := by
      funext d x
      exact ha d x
    obtain ⟨c, hcd⟩ : ∃ c, c = Real.pi / (3 * √3) := ⟨_, rfl⟩
    have hc0 : 0 < c := by rw [hcd]; positivity
    have hx : ∀ x : PSite L, dualF lg topoV a 0 1 2 3 x + dualF lg topoV a 2 3 0 1 x +
      dualF lg topoV a 0 2 1 3 x + dualF lg topoV a 1 3 0 2 x + dualF lg topoV a 0 3 1 2 x + dualF lg topoV a 1 2 0 3 x = c ^ 2 * Real.pi * 8 := by
      intro x
      obtain ⟨p1, p2, p3, p4, p5, p6⟩ := topoV_plaq x
      obtain ⟨l1, l2, l3, l4, l5, l6⟩ := topoV_logs hlg x
      unfold dualF dualQ
      rw [hA]
      simp only [dpath_gauge topoV_su.unitary _ hs, p1, p2, p3, p4, p5, p6, l1, l2, l3, l4, l5, l6, ← hcd]
      simp only [quatM_star, quatM_mul, quatM_sub, quatM_trace]
      ring
    simp only [hx, Finset.sum_const, Finset.card_univ, nsmul_eq_mul]
    have : (0 : ℝ) < (Fintype.card (PSite L) : ℝ) := Nat.cast_pos.2 Fintype.card_pos
    positivity

/-! ### The hypotheses are met -/

/-- The logarithms and the fields of the theorems exist. -/
example : ∃ lg : Mat 2 → Alg 2, IsLog √3 lg ∧ HasLogs √3 (topoV (L := fun _ => 3)) ∧ HasLogs √3 (cloverV (L := fun _ => 3)) := by
  obtain ⟨lg, hlg⟩ := C65_log_exists (N := 2) (by norm_num)
  have h3 : IsLog √3 lg := hlg.mono (by
    have := Real.pi_gt_d2
    rw [Real.sqrt_le_left (by linarith)]
    nlinarith)
  exact ⟨lg, h3, topoV_hasLogs h3, cloverV_logs h3⟩

/-- Curves through a field that is not abelian, in any direction, to which `C65_plaq_force` applies. -/
theorem su_curve (V : GField L N) (hN : 0 < N) (hV : IsSUField V) (a : AlgField L N) :
    ∃ U : ℝ → GField L N, LinkCurve U (fun d x => expand (a d x)) ∧ (∀ t, IsSUField (U t)) ∧ U 0 = V := by
  refine ⟨_, exp_curve V (fun d x => expand (a d x)), fun t d x => ?_, ?_⟩
  · refine mul_mem ?_ (hV d x)
    have e : (t : ℝ) • expand (a d x) = expand (t • a d x) := by
      rw [expand_eq hN, expand_eq hN, algMat_smul]
      rfl
    beta_reduce
    rw [e]
    exact expAlg_mem hN _
  · funext d x
    simp

example (a : AlgField (fun _ : Fin 4 => 3) 2) : ∃ U : ℝ → GField (fun _ : Fin 4 => 3) 2, LinkCurve U (fun d x => expand (a d x)) ∧ (∀ t, IsSUField (U t)) ∧ U 0 = topoV :=
  su_curve topoV (by norm_num) topoV_su a

theorem rotI_mul (s t : ℝ) : rotM 1 0 0 s * rotM 1 0 0 t = rotM 1 0 0 (s + t) := by
  unfold rotM
  rw [quatM_mul, Real.cos_add, Real.sin_add]
  congr 1 <;> ring

theorem rotI_star (t : ℝ) : (rotM 1 0 0 t)ᴴ = rotM 1 0 0 (-t) := by
  unfold rotM
  rw [quatM_star, Real.cos_neg, Real.sin_neg]
  congr 1 <;> ring

theorem rotI_log {lg : Mat 2 → Alg 2} {r : ℝ} (hlg : IsLog r lg) {t : ℝ} (ht : |t| < r) : HasLog r (rotM 1 0 0 t) ∧ expand (lg (rotM 1 0 0 t)) = quatM 0 t 0 0 := by
  rcases le_total 0 t with h | h
  · have := quatM_log hlg (b := 1) (c := 0) (d := 0) (by norm_num) h (by rwa [abs_of_nonneg h] at ht)
    simpa [rotM] using this
  · have := quatM_log hlg (b := -1) (c := 0) (d := 0) (by norm_num) (neg_nonneg.2 h) (by rwa [abs_of_nonpos h] at ht)
    simpa [rotM, Real.sin_neg, Real.cos_neg] using this

/-- The angle of the link in direction 1. -/
noncomputable def abelPhi (x : PSite fun _ : Fin 2 => 3) : ℝ := if x 0 = 0 then 1 else 0

/-- An abelian field with plaquettes that are not 1. -/
noncomputable def abelV : GField (fun _ : Fin 2 => 3) 2 := fun d x => rotM 1 0 0 (if d = 1 then abelPhi x else 0)

theorem abelV_leaf (x : PSite fun _ : Fin 2 => 3) (k : Fin 4) : pathM abelV (leafPath 0 1 k) x = rotM 1 0 0
    (![abelPhi (x + Pi.single 0 1) - abelPhi x, abelPhi x - abelPhi (x - Pi.single 0 1), abelPhi (x - Pi.single 1 1) - abelPhi (x - Pi.single 1 1 - Pi.single 0 1),
      abelPhi (x - Pi.single 1 1 + Pi.single 0 1) - abelPhi (x - Pi.single 1 1)] k) := by
  have n1 : ((0 : Fin 2) = 1) = False := by simp
  fin_cases k
  · show pathM abelV [(0, true), (1, true), (0, false), (1, false)] x = _
    rw [leaf0]
    simp only [abelV, n1, if_false, if_true, rotI_star, rotI_mul, cons_val, Fin.zero_eta]
    congr 1; ring
  · show pathM abelV [(1, true), (0, false), (1, false), (0, true)] x = _
    rw [leaf1]
    simp only [abelV, n1, if_false, if_true, rotI_star, rotI_mul, cons_val, Fin.mk_one]
    congr 1; ring
  · show pathM abelV [(0, false), (1, false), (0, true), (1, true)] x = _
    rw [leaf2]
    simp only [abelV, n1, if_false, if_true, rotI_star, rotI_mul, Fin.reduceFinMk, cons_val]
    congr 1; ring
  · show pathM abelV [(1, false), (0, true), (1, true), (0, false)] x = _
    rw [leaf3]
    simp only [abelV, n1, if_false, if_true, rotI_star, rotI_mul, Fin.reduceFinMk, cons_val]
    congr 1; ring

/-- The hypotheses of `C65_clover_force_partial` are met by an abelian field with plaquettes that are not 1, for curves in all directions. -/
example (a : AlgField (fun _ : Fin 2 => 3) 2) : ∃ (lg : Mat 2 → Alg 2) (U : ℝ → GField (fun _ : Fin 2 => 3) 2), IsLog Real.pi lg ∧
    LinkCurve U (fun d x => expand (a d x)) ∧ (∀ t, IsSUField (U t)) ∧ HasLogs Real.pi (U 0) ∧
    (∀ d1 d2, d1 < d2 → ∀ x k, Commute (logField lg (U 0) d1 d2 x) (expand (lg (pathM (U 0) (leafPath d1 d2 k) x)))) ∧
    logField lg (U 0) 0 1 (Pi.single 0 1) = quatM 0 (-(1 / 2)) 0 0 := by
  have hsu : IsSUField abelV := fun d x => rotM_su (by norm_num) _
  obtain ⟨lg, hlg⟩ := C65_log_exists (N := 2) (by norm_num)
  obtain ⟨U, h1, h2, h3⟩ := su_curve abelV (by norm_num) hsu a
  have hpi : (1 : ℝ) < Real.pi := by have := Real.pi_gt_d2; linarith
  have key : ∀ x y, |abelPhi x - abelPhi y| < Real.pi := by
    intro x y
    refine lt_of_le_of_lt ?_ hpi
    unfold abelPhi
    split_ifs <;> norm_num
  have hlog : ∀ x k, HasLog Real.pi (pathM abelV (leafPath 0 1 k) x) ∧ expand (lg (pathM abelV (leafPath 0 1 k) x)) = quatM 0
    (![abelPhi (x + Pi.single 0 1) - abelPhi x, abelPhi x - abelPhi (x - Pi.single 0 1), abelPhi (x - Pi.single 1 1) - abelPhi (x - Pi.single 1 1 - Pi.single 0 1),
      abelPhi (x - Pi.single 1 1 + Pi.single 0 1) - abelPhi (x - Pi.single 1 1)] k) 0 0 := by
    intro x k
    rw [abelV_leaf]
    exact rotI_log hlg (by fin_cases k <;> exact key _ _)
  have hfield : ∀ x, logField lg abelV 0 1 x = quatM 0 (1 / 4 * (abelPhi (x + Pi.single 0 1) - abelPhi x + (abelPhi x - abelPhi (x - Pi.single 0 1)) +
      (abelPhi (x - Pi.single 1 1) - abelPhi (x - Pi.single 1 1 - Pi.single 0 1)) + (abelPhi (x - Pi.single 1 1 + Pi.single 0 1) - abelPhi (x - Pi.single 1 1)))) 0 0 := by
    intro x
    have h0 := (hlog x 0).2
    have h1 := (hlog x 1).2
    have h2 := (hlog x 2).2
    have h3 := (hlog x 3).2
    simp only [leafPath, cons_val] at h0 h1 h2 h3
    unfold logField
    rw [h0, h1, h2, h3, quatM_add, quatM_add, quatM_add, show (1 / 4 : ℂ) = ((1 / 4 : ℝ) : ℂ) by push_cast; ring, quatM_smul]
    congr 1 <;> ring
  refine ⟨lg, U, hlg, h1, h2, ?_, ?_, ?_⟩
  · rw [h3]
    intro d1 d2 hd x
    have e1 : d1 = 0 := by omega
    have e2 : d2 = 1 := by omega
    subst e1 e2
    exact (hlog x 0).1
  · rw [h3]
    intro d1 d2 hd x k
    have e1 : d1 = 0 := by omega
    have e2 : d2 = 1 := by omega
    subst e1 e2
    rw [(hlog x k).2, hfield]
    show _ * _ = _ * _
    rw [quatM_mul, quatM_mul]
    congr 1 <;> ring
  · rw [h3, hfield]
    have e : ∀ y : PSite (fun _ : Fin 2 => 3), abelPhi y = if y 0 = 0 then 1 else 0 := fun y => rfl
    have z1 : (1 : ZMod 3) ≠ 0 := by decide
    have z2 : (1 + 1 : ZMod 3) ≠ 0 := by decide
    simp only [e, Pi.add_apply, Pi.sub_apply, Pi.single_eq_same, Pi.single_eq_of_ne (show (0 : Fin 2) ≠ 1 by decide), sub_zero, sub_self, z1, z2, if_true, if_false]
    norm_num

/-- A field with one plane that is not trivial. -/
noncomputable def topoW : GField (fun _ : Fin 4 => 3) 2 := fun d _ =>
  ![quatM (1 / 2) (1 / 2) (1 / 2) (1 / 2), quatM (1 / 2) (1 / 2) (-(1 / 2)) (1 / 2), quatM 1 0 0 0, quatM 1 0 0 0] d

/-- The hypotheses of `C65_topo_force_partial` are met by a field with links that do not commute, for curves in all directions. -/
example (a : AlgField (fun _ : Fin 4 => 3) 2) : ∃ (lg : Mat 2 → Alg 2) (U : ℝ → GField (fun _ : Fin 4 => 3) 2), IsLog √3 lg ∧
    LinkCurve U (fun d x => expand (a d x)) ∧ (∀ t, IsSUField (U t)) ∧ HasLogs √3 (U 0) ∧
    (∀ x, Commute (plaqLog lg (U 0) 0 1 x) (plaqLog lg (U 0) 2 3 x) ∧ Commute (plaqLog lg (U 0) 0 2 x) (plaqLog lg (U 0) 1 3 x) ∧
      Commute (plaqLog lg (U 0) 0 3 x) (plaqLog lg (U 0) 1 2 x)) ∧ plaqLog lg (U 0) 0 1 0 = quatM 0 0 (Real.pi / 2) 0 := by
  have hsu : IsSUField topoW := by
    intro d x
    unfold topoW
    fin_cases d <;> exact quatM_su (by norm_num)
  obtain ⟨lg, hlg'⟩ := C65_log_exists (N := 2) (by norm_num)
  have hlg : IsLog √3 lg := hlg'.mono (by
    have := Real.pi_gt_d2
    rw [Real.sqrt_le_left (by linarith)]
    nlinarith)
  obtain ⟨U, h1, h2, h3⟩ := su_curve topoW (by norm_num) hsu a
  have p01 : ∀ x, pathM topoW [(0, true), (1, true), (0, false), (1, false)] x = quatM 0 0 1 0 := by
    intro x
    rw [leaf0]
    simp only [topoW, cons_val, quatM_star, quatM_mul]
    norm_num
  have pr : ∀ (d1 d2 : Fin 4), d1 < d2 → (d1, d2) ≠ (0, 1) → ∀ x, pathM topoW [(d1, true), (d2, true), (d1, false), (d2, false)] x = quatM 1 0 0 0 := by
    intro d1 d2 hd hne x
    rw [leaf0]
    fin_cases d1 <;> fin_cases d2 <;> first
      | exact absurd hd (by decide)
      | exact absurd rfl hne
      | (simp only [topoW, cons_val, quatM_star, quatM_mul, Fin.reduceFinMk, Fin.zero_eta, Fin.mk_one]
         norm_num)
  have l0 : ∀ (d1 d2 : Fin 4), d1 < d2 → (d1, d2) ≠ (0, 1) → ∀ x, plaqLog lg topoW d1 d2 x = quatM 0 0 0 0 := by
    intro d1 d2 hd hne x
    unfold plaqLog
    rw [pr d1 d2 hd hne, (log_one hlg).2]
  have z : quatM 0 0 0 0 = 0 := by
    unfold quatM
    ext i j
    fin_cases i <;> fin_cases j <;> simp
  refine ⟨lg, U, hlg, h1, h2, ?_, ?_, ?_⟩
  · rw [h3]
    intro d1 d2 hd x
    by_cases h : (d1, d2) = (0, 1)
    · rw [Prod.mk.injEq] at h
      rw [h.1, h.2, p01]
      exact (log_J hlg).1
    · rw [pr d1 d2 hd h]
      exact (log_one hlg).1
  · intro x
    rw [h3, l0 2 3 (by decide) (by decide), l0 1 3 (by decide) (by decide), l0 1 2 (by decide) (by decide), z]
    exact ⟨Commute.zero_right _, Commute.zero_right _, Commute.zero_right _⟩
  · rw [h3]
    unfold plaqLog
    rw [p01, (log_J hlg).2]

end Hila
