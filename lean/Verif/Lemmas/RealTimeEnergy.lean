import Verif.Lemmas.RealTime
import Mathlib.Analysis.Calculus.Deriv.Prod

/-!
# Evolution in real time: derivative of the energy
-/

namespace Hila

open Matrix Filter Topology

variable {n : ℕ} {L : Fin n → ℕ} {N : ℕ}

theorem expand_deriv (hN : 0 < N) {a : ℝ → Alg N} {a' : Alg N} (h : ∀ k, HasDerivAt (fun t => a t k) (a' k) 0) :
    MDeriv (fun t => expand (a t)) (expand a') := by
  intro i j
  simp only [expand_eq hN, algMat, Matrix.sum_apply, Matrix.smul_apply, smul_eq_mul]
  exact HasDerivAt.fun_sum fun k _ => (h k).ofReal_comp.mul_const _

theorem exp_deriv {b : ℝ → Mat N} {b' : Mat N} (h : MDeriv b b') (h0 : b 0 = 0) :
    MDeriv (fun t => NormedSpace.exp (b t)) b' := by
  let : NormedRing (Mat N) := Matrix.linftyOpNormedRing
  let : NormedAlgebra ℝ (Mat N) := Matrix.linftyOpNormedAlgebra
  let : NormedAlgebra ℚ (Mat N) := Matrix.linftyOpNormedAlgebra
  have hb : HasDerivAt b b' 0 := by
    have hp : HasDerivAt (fun t => (fun i j => b t i j : Fin N → Fin N → ℂ)) (fun i j => b' i j) 0 :=
      hasDerivAt_pi.2 fun i => hasDerivAt_pi.2 fun j => h i j
    let f : (Fin N → Fin N → ℂ) →ₗ[ℝ] Mat N :=
      { toFun := fun m => Matrix.of m, map_add' := fun _ _ => rfl, map_smul' := fun _ _ => rfl }
    exact (LinearMap.toContinuousLinearMap f).hasFDerivAt.comp_hasDerivAt 0 hp
  have he : HasFDerivAt NormedSpace.exp (1 : Mat N →L[ℝ] Mat N) (b 0) := by
    rw [h0]; exact hasFDerivAt_exp_zero
  have hc := he.comp_hasDerivAt 0 hb
  intro i j
  exact (LinearMap.toContinuousLinearMap (Matrix.entryLinearMap ℝ ℂ i j)).hasFDerivAt.comp_hasDerivAt (0 : ℝ) hc

/-- Curves of fields with multiples of the derivatives of the two updates. -/
structure RtCurve (s : ℝ → RtState L N) (c e : ℝ) : Prop where
  U : LinkCurve (fun t => (s t).U) fun d x => expand (c • (s 0).E d x)
  E : ∀ d x k, HasDerivAt (fun t => (s t).E d x k) (-(e * rtForce (s 0).U d x k)) 0

theorem drift_zero (hN : 0 < N) (s : RtState L N) : rtUpdateU expAlg 0 s = s := by
  unfold rtUpdateU
  simp [expAlg_zero hN]

theorem kick_zero (s : RtState L N) : rtKick 0 s = s := by
  unfold rtKick
  simp

theorem RtCurve.drift (hN : 0 < N) {s : ℝ → RtState L N} {c e : ℝ} (h : RtCurve s c e) (r : ℝ) :
    RtCurve (fun t => rtUpdateU expAlg (r * t) (s t)) (c + r) e := by
  have h0 : rtUpdateU expAlg (r * 0) (s 0) = s 0 := by rw [mul_zero, drift_zero hN]
  refine ⟨?_, ?_⟩
  · intro d x
    have hE := expand_deriv hN (fun k => h.E d x k)
    have hb : MDeriv (fun t => expand ((r * t) • (s t).E d x)) (expand (r • (s 0).E d x)) := by
      intro i j
      simp only [expand_smul hN, Matrix.smul_apply, smul_eq_mul]
      have h1 : HasDerivAt (fun t : ℝ => ((r * t : ℝ) : ℂ)) (r : ℂ) 0 := by
        have := ((hasDerivAt_id (0 : ℝ)).const_mul r).ofReal_comp
        simpa using this
      refine (h1.mul (hE i j)).congr_deriv ?_
      simp
    have hx := exp_deriv hb (by rw [mul_zero, zero_smul, expandZero hN])
    have hm := hx.mul (h.U d x)
    show MDeriv (fun t => (rtUpdateU expAlg (r * t) (s t)).U d x)
      (expand ((c + r) • (rtUpdateU expAlg (r * 0) (s 0)).E d x) * (rtUpdateU expAlg (r * 0) (s 0)).U d x)
    rw [h0]
    have e1 : expand (r • (s 0).E d x) * (s 0).U d x +
        NormedSpace.exp (expand ((r * 0) • (s 0).E d x)) * (expand (c • (s 0).E d x) * (s 0).U d x) =
        expand ((c + r) • (s 0).E d x) * (s 0).U d x := by
      rw [mul_zero, zero_smul, expandZero hN, NormedSpace.exp_zero, Matrix.one_mul, add_smul, expand_add hN, Matrix.add_mul, add_comm]
    rw [e1] at hm
    exact hm
  · intro d x k
    show HasDerivAt (fun t => (s t).E d x k) (-(e * rtForce (rtUpdateU expAlg (r * 0) (s 0)).U d x k)) 0
    rw [h0]
    exact h.E d x k

theorem hasDerivAt_id_mul {f : ℝ → ℝ} (hf : ContinuousAt f 0) : HasDerivAt (fun t => t * f t) (f 0) 0 := by
  rw [hasDerivAt_iff_tendsto_slope_zero]
  refine (hf.tendsto.mono_left nhdsWithin_le_nhds).congr' ?_
  filter_upwards [self_mem_nhdsWithin] with t ht
  have ht : t ≠ 0 := ht
  simp only [zero_add, zero_mul, sub_zero, smul_eq_mul]
  field_simp

theorem cont_force (hN : 0 < N) (d : Fin n) (x : PSite L) (k : Fin (N * N - 1)) :
    Continuous fun U : GField L N => rtForce U d x k := by
  unfold rtForce
  simp only [project_eq hN, coef]
  exact continuous_const.mul (cont_trace (continuous_const.matrix_mul
    ((cont_link d x).matrix_mul (cont_staple _ d x).matrix_conjTranspose)))

theorem RtCurve.kick (hN : 0 < N) {s : ℝ → RtState L N} {c e : ℝ} (h : RtCurve s c e) (r : ℝ) :
    RtCurve (fun t => rtKick (r * t) (s t)) c (e + r) := by
  have h0 : rtKick (r * 0) (s 0) = s 0 := by rw [mul_zero, kick_zero]
  refine ⟨?_, ?_⟩
  · intro d x
    show MDeriv (fun t => (s t).U d x) (expand (c • (rtKick (r * 0) (s 0)).E d x) * (rtKick (r * 0) (s 0)).U d x)
    rw [h0]
    exact h.U d x
  · intro d x k
    show HasDerivAt (fun t => (s t).E d x k - (r * t) * rtForce (s t).U d x k) (-((e + r) * rtForce (rtKick (r * 0) (s 0)).U d x k)) 0
    rw [h0]
    have hc : ContinuousAt (fun t => (s t).U) 0 := by
      refine continuousAt_pi.2 fun d => continuousAt_pi.2 fun x => continuousAt_pi.2 fun i => continuousAt_pi.2 fun j => ?_
      exact (h.U d x i j).continuousAt
    have hf : ContinuousAt (fun t => r * rtForce (s t).U d x k) 0 :=
      continuousAt_const.mul ((cont_force hN d x k).continuousAt.comp hc)
    have := (h.E d x k).sub (hasDerivAt_id_mul hf)
    refine (this.congr_deriv (by ring)).congr_of_eventuallyEq (Filter.Eventually.of_forall fun t => ?_)
    show _ = (s t).E d x k - t * (r * rtForce (s t).U d x k)
    ring

theorem RtCurve.const (s : RtState L N) (hN : 0 < N) : RtCurve (fun _ => s) 0 0 := by
  refine ⟨fun d x => ?_, fun d x k => ?_⟩
  · show MDeriv (fun _ => s.U d x) (expand ((0 : ℝ) • s.E d x) * s.U d x)
    rw [zero_smul, expandZero hN, Matrix.zero_mul]
    exact MDeriv.const _
  · rw [zero_mul, neg_zero]
    exact hasDerivAt_const _ _

theorem rtRun_curve (hN : 0 < N) (k : ℕ) (s : RtState L N) :
    RtCurve (fun dt => rtRun expAlg dt k s) (k + 1) (k + 1) := by
  have h1 : RtCurve (fun dt => rtUpdateU expAlg (dt / 2) s) (1 / 2) 0 := by
    have := (RtCurve.const s hN).drift hN (1 / 2)
    rw [zero_add] at this
    convert this using 3
    ring
  have h2 : ∀ k : ℕ, RtCurve (fun dt => (fun s => rtUpdateU expAlg dt (rtKick dt s))^[k] (rtUpdateU expAlg (dt / 2) s)) (k + 1 / 2) k := by
    intro k
    induction k with
    | zero => simpa using h1
    | succ k ih =>
      have := (ih.kick hN 1).drift hN 1
      simp only [one_mul] at this
      simp only [Function.iterate_succ_apply', Nat.cast_succ]
      rw [show (k : ℝ) + 1 + 1 / 2 = k + 1 / 2 + 1 by ring]
      exact this
  have h3 := ((h2 k).kick hN 1).drift hN (1 / 2)
  have e1 : (fun dt => rtRun expAlg dt k s) = fun t => rtUpdateU expAlg (1 / 2 * t)
      (rtKick (1 * t) ((fun s => rtUpdateU expAlg t (rtKick t s))^[k] (rtUpdateU expAlg (t / 2) s))) := by
    funext t
    rw [one_mul, show 1 / 2 * t = t / 2 by ring]
    rfl
  rw [e1, show (k : ℝ) + 1 = k + 1 / 2 + 1 / 2 by ring]
  rw [show (k : ℝ) + 1 = k + 1 / 2 + 1 / 2 by ring] at h3
  exact h3

theorem rtPlaq_eq [∀ d, NeZero (L d)] (hN : 0 < N) (U : GField L N) : rtPlaq U = N * measureSWplaq U := by
  have hN' : (N : ℝ) ≠ 0 := Nat.cast_ne_zero.2 (by omega)
  unfold rtPlaq measureSWplaq
  rw [Finset.mul_sum]
  refine Finset.sum_congr rfl fun d1 _ => ?_
  rw [Finset.mul_sum]
  refine Finset.sum_congr rfl fun d2 _ => ?_
  split_ifs
  · rw [Finset.mul_sum]
    refine Finset.sum_congr rfl fun x _ => ?_
    rw [Matrix.conjTranspose_mul, ← Matrix.mul_assoc]
    field_simp
  · simp

theorem RtCurve.energy [∀ d, NeZero (L d)] (hN : 0 < N) {s : ℝ → RtState L N} {c e : ℝ} (h : RtCurve s c e) :
    HasDerivAt (fun t => rtEnergy (s t)) ((c - e) * pairK (s 0).E (rtForce (s 0).U)) 0 := by
  have h1 : HasDerivAt (fun t => ∑ d, ∑ x, ((s t).E d x).squarenorm) (-(2 * e * pairK (s 0).E (rtForce (s 0).U))) 0 := by
    unfold Alg.squarenorm pairK
    simp only [Finset.mul_sum, ← Finset.sum_neg_distrib]
    refine HasDerivAt.fun_sum fun d _ => HasDerivAt.fun_sum fun x _ => HasDerivAt.fun_sum fun k _ => ?_
    refine ((h.E d x k).pow 2).congr_deriv ?_
    push_cast
    ring
  have h2 : HasDerivAt (fun t => rtPlaq (s t).U) (c / 2 * pairK (s 0).E (rtForce (s 0).U)) 0 := by
    simp only [rtPlaq_eq hN]
    refine ((wplaq_deriv hN h.U).const_mul (N : ℝ)).congr_deriv ?_
    have hp := staple_pair hN (s 0).U (s 0).E 1
    have he : rtForce (s 0).U = fun d x => projectScaled ((s 0).U d x * (stapleSpec (fun _ _ => 1) (s 0).U d x)ᴴ) 1 := by
      funext d x
      unfold rtForce
      rw [project_eq hN, projectScaled_eq hN]
      funext k
      ring
    rw [he, hp]
    have hN' : (N : ℝ) ≠ 0 := Nat.cast_ne_zero.2 (by omega)
    have hs : (∑ d, ∑ x, (expand (c • (s 0).E d x) * ((s 0).U d x * (stapleSpec (fun _ _ => 1) (s 0).U d x)ᴴ)).trace.re) =
        c * ∑ d, ∑ x, (algMat ((s 0).E d x) * ((s 0).U d x * (stapleSpec (fun _ _ => 1) (s 0).U d x)ᴴ)).trace.re := by
      simp only [Finset.mul_sum]
      refine Finset.sum_congr rfl fun d _ => Finset.sum_congr rfl fun x _ => ?_
      rw [expand_smul hN, expand_eq hN, Matrix.smul_mul, Matrix.trace_smul, smul_eq_mul, Complex.re_ofReal_mul]
    rw [hs]
    field_simp
  have h3 := (h1.div_const 2).add (h2.const_mul 2)
  have e1 : (fun t => rtEnergy (s t)) = (fun t => (∑ d, ∑ x, ((s t).E d x).squarenorm) / 2) +
      fun t => 2 * rtPlaq (s t).U := by
    funext t
    show _ = (∑ d, ∑ x, ((s t).E d x).squarenorm) / 2 + 2 * rtPlaq (s t).U
    unfold rtEnergy
    norm_num
  rw [e1]
  refine h3.congr_deriv ?_
  ring

end Hila
