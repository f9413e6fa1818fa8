import Verif.Model.Clover
import Verif.Props.Force

/-!
# Clover action, energy and topological charge: C58

`fieldStrength U d1 d2 x` is the specification: the antihermitean traceless part of the mean of the four plaquettes of the plane
that touch `x`, as path ordered products.
-/

set_option linter.unusedSectionVars false

namespace Hila

open Matrix

variable {n : ℕ} {L : Fin n → ℕ} {N : ℕ}

/-- The field strength at a site. -/
noncomputable def fieldStrength (U : GField L N) (d1 d2 : Fin n) (x : PSite L) : Mat N :=
  algPart ((1 / 4 : ℂ) • (pathM U [(d1, true), (d2, true), (d1, false), (d2, false)] x +
    pathM U [(d2, true), (d1, false), (d2, false), (d1, true)] x + pathM U [(d1, false), (d2, false), (d1, true), (d2, true)] x +
    pathM U [(d2, false), (d1, true), (d2, true), (d1, false)] x))

theorem lieProject_eq (M : Mat N) : lieProject M = algPart M := by
  unfold lieProject algPart
  norm_num

theorem algPart_add (A B : Mat N) : algPart (A + B) = algPart A + algPart B := by
  unfold algPart
  rw [Matrix.conjTranspose_add, show A + B - (Aᴴ + Bᴴ) = (A - Aᴴ) + (B - Bᴴ) by abel, smul_add, Matrix.trace_add, add_div, add_smul]
  abel

theorem algPart_smul (c : ℝ) (A : Mat N) : algPart ((c : ℂ) • A) = (c : ℂ) • algPart A := by
  unfold algPart
  rw [Matrix.conjTranspose_smul, show star (c : ℂ) = (c : ℂ) from Complex.conj_ofReal c, ← smul_sub, smul_comm (1 / 2 : ℂ) (c : ℂ),
    Matrix.trace_smul, smul_eq_mul, mul_div_assoc, mul_smul, ← smul_sub]

theorem algPart_star (A : Mat N) : algPart Aᴴ = -algPart A := by
  unfold algPart
  rw [Matrix.conjTranspose_conjTranspose, ← neg_sub A Aᴴ, smul_neg, Matrix.trace_neg, neg_div, neg_smul]
  abel

theorem algPart_trace (hN : 0 < N) (A : Mat N) : (algPart A).trace = 0 := by
  unfold algPart
  rw [Matrix.trace_sub, Matrix.trace_smul _ (1 : Mat N), Matrix.trace_one, Fintype.card_fin, smul_eq_mul, div_mul_cancel₀, sub_self]
  exact Nat.cast_ne_zero.2 (by omega)

theorem algPart_rot (V A : Mat N) (hV : V * Vᴴ = 1) : algPart (Vᴴ * A * V) = Vᴴ * algPart A * V := by
  have hV' : Vᴴ * V = 1 := mul_eq_one_comm.1 hV
  have e : Vᴴ * A * V - (Vᴴ * A * V)ᴴ = Vᴴ * (A - Aᴴ) * V := by
    simp only [Matrix.conjTranspose_mul, Matrix.conjTranspose_conjTranspose, Matrix.mul_sub, Matrix.sub_mul, Matrix.mul_assoc]
  unfold algPart
  rw [e, ← Matrix.smul_mul, ← Matrix.mul_smul, Matrix.mul_sub, Matrix.sub_mul, Matrix.trace_mul_comm (Vᴴ * _) V, ← Matrix.mul_assoc V,
    hV, Matrix.one_mul, Matrix.mul_smul _ _ (1 : Mat N), Matrix.mul_one, Matrix.smul_mul, hV']

theorem sqNorm_eq (M : Mat N) : sqNorm M = (Mᴴ * M).trace.re := by
  unfold sqNorm Matrix.trace
  rw [Complex.re_sum, Finset.sum_comm]
  refine Finset.sum_congr rfl fun j _ => ?_
  rw [Matrix.diag_apply, Matrix.mul_apply, Complex.re_sum]
  refine Finset.sum_congr rfl fun i _ => ?_
  rw [Matrix.conjTranspose_apply, Complex.star_def, ← Complex.normSq_eq_conj_mul_self, Complex.ofReal_re]

theorem leaf0 (U : GField L N) (d1 d2 : Fin n) (x : PSite L) : pathM U [(d1, true), (d2, true), (d1, false), (d2, false)] x =
    U d1 x * (U d2 (x + Pi.single d1 1) * ((U d1 (x + Pi.single d2 1))ᴴ * (U d2 x)ᴴ)) := by
  simp only [pathM, linkM, stepVec, if_true, Bool.false_eq_true, if_false, Matrix.mul_one, ← sub_eq_add_neg]
  rw [show x + (Pi.single d1 1 : PSite L) + Pi.single d2 1 - Pi.single d1 1 = x + Pi.single d2 1 by abel, add_sub_cancel_right]

theorem leaf1 (U : GField L N) (d1 d2 : Fin n) (x : PSite L) : pathM U [(d2, true), (d1, false), (d2, false), (d1, true)] x =
    U d2 x * ((U d1 (x - Pi.single d1 1 + Pi.single d2 1))ᴴ * ((U d2 (x - Pi.single d1 1))ᴴ * U d1 (x - Pi.single d1 1))) := by
  simp only [pathM, linkM, stepVec, if_true, Bool.false_eq_true, if_false, Matrix.mul_one, ← sub_eq_add_neg]
  rw [show x + (Pi.single d2 1 : PSite L) - Pi.single d1 1 = x - Pi.single d1 1 + Pi.single d2 1 by abel, add_sub_cancel_right]

theorem leaf2 (U : GField L N) (d1 d2 : Fin n) (x : PSite L) : pathM U [(d1, false), (d2, false), (d1, true), (d2, true)] x =
    (U d1 (x - Pi.single d1 1))ᴴ * ((U d2 (x - Pi.single d2 1 - Pi.single d1 1))ᴴ *
      (U d1 (x - Pi.single d2 1 - Pi.single d1 1) * U d2 (x - Pi.single d2 1))) := by
  simp only [pathM, linkM, stepVec, if_true, Bool.false_eq_true, if_false, Matrix.mul_one, ← sub_eq_add_neg]
  rw [show x - (Pi.single d1 1 : PSite L) - Pi.single d2 1 = x - Pi.single d2 1 - Pi.single d1 1 by abel, sub_add_cancel]

theorem leaf3 (U : GField L N) (d1 d2 : Fin n) (x : PSite L) : pathM U [(d2, false), (d1, true), (d2, true), (d1, false)] x =
    (U d2 (x - Pi.single d2 1))ᴴ * (U d1 (x - Pi.single d2 1) * (U d2 (x - Pi.single d2 1 + Pi.single d1 1) * (U d1 x)ᴴ)) := by
  simp only [pathM, linkM, stepVec, if_true, Bool.false_eq_true, if_false, Matrix.mul_one, ← sub_eq_add_neg]
  rw [show x - (Pi.single d2 1 : PSite L) + Pi.single d1 1 + Pi.single d2 1 - Pi.single d1 1 = x by abel]

/-- The four leaves are a quarter of the four loops, and the sum is the field strength. -/
theorem C58_leaves (U : GField L N) (hU : IsUnitaryField U) (d1 d2 : Fin n) (x : PSite L) :
    (∀ k, (cloverLeaves U d1 d2).1 k x = (1 / 4 : ℂ) • pathM U (leafPath d1 d2 k) x) ∧
    (cloverLeaves U d1 d2).2 x = fieldStrength U d1 d2 x := by
  have h0 : (cloverLeaves U d1 d2).1 0 x = (1 / 4 : ℂ) • pathM U (leafPath d1 d2 0) x := by
    refine Eq.trans ?_ (congrArg _ (leaf0 U d1 d2 x).symm)
    simp only [cloverLeaves, Matrix.cons_val_zero, unitStep, Matrix.conjTranspose_mul, Matrix.mul_smul, Matrix.mul_assoc]
    norm_num
  have h1 : ∀ x, (cloverLeaves U d1 d2).1 1 x = (1 / 4 : ℂ) • pathM U (leafPath d1 d2 1) x := by
    intro x
    refine Eq.trans ?_ (congrArg _ (leaf1 U d1 d2 x).symm)
    simp only [cloverLeaves, Matrix.cons_val_one, Matrix.cons_val_zero, unitStep, Matrix.conjTranspose_mul, Matrix.smul_mul, Matrix.mul_assoc,
      sub_add_cancel]
    norm_num
  have h2 : (cloverLeaves U d1 d2).1 2 x = (1 / 4 : ℂ) • pathM U (leafPath d1 d2 2) x := by
    refine Eq.trans ?_ (congrArg _ (leaf2 U d1 d2 x).symm)
    have e : (cloverLeaves U d1 d2).1 2 x =
      (U d2 (x - Pi.single d2 1))ᴴ * (cloverLeaves U d1 d2).1 1 (x - Pi.single d2 1) * U d2 (x - Pi.single d2 1) := rfl
    rw [e, h1, show leafPath d1 d2 1 = [(d2, true), (d1, false), (d2, false), (d1, true)] from rfl, leaf1, Matrix.mul_smul, cancelU hU, Matrix.smul_mul,
      show x - (Pi.single d2 1 : PSite L) - Pi.single d1 1 + Pi.single d2 1 = x - Pi.single d1 1 by abel]
    simp only [Matrix.mul_assoc]
  have h3 : (cloverLeaves U d1 d2).1 3 x = (1 / 4 : ℂ) • pathM U (leafPath d1 d2 3) x := by
    refine Eq.trans ?_ (congrArg _ (leaf3 U d1 d2 x).symm)
    simp only [cloverLeaves, Matrix.cons_val, unitStep, Matrix.conjTranspose_mul, Matrix.mul_smul, Matrix.smul_mul, Matrix.mul_assoc, sub_add_cancel,
      hU.left, Matrix.mul_one]
    norm_num
  refine ⟨fun k => by fin_cases k <;> [exact h0; exact h1 x; exact h2; exact h3], ?_⟩
  have e : (cloverLeaves U d1 d2).2 x = lieProject ((cloverLeaves U d1 d2).1 0 x + (cloverLeaves U d1 d2).1 1 x + (cloverLeaves U d1 d2).1 2 x +
    (cloverLeaves U d1 d2).1 3 x) := rfl
  rw [e, h0, h1, h2, h3, lieProject_eq, ← smul_add, ← smul_add, ← smul_add]
  rfl

/-- The field strength transforms at its site. -/
theorem C58_covariant (U : GField L N) (g : PSite L → Mat N) (hg : IsGauge g) (d1 d2 : Fin n) (x : PSite L) :
    fieldStrength (gaugeT g U) d1 d2 x = g x * fieldStrength U d1 d2 x * (g x)ᴴ := by
  have hd : ∀ k, (disp (leafPath d1 d2 k) : PSite L) = 0 := by
    intro k
    fin_cases k <;> (simp [leafPath, disp, stepVec])
  have hk : ∀ k, pathM (gaugeT g U) (leafPath d1 d2 k) x = ((g x)ᴴ)ᴴ * pathM U (leafPath d1 d2 k) x * (g x)ᴴ := by
    intro k
    rw [C56_covariant U g hg, hd, add_zero, Matrix.conjTranspose_conjTranspose]
  have h0 := hk 0; have h1 := hk 1; have h2 := hk 2; have h3 := hk 3
  simp only [leafPath, Matrix.cons_val] at h0 h1 h2 h3
  unfold fieldStrength
  rw [h0, h1, h2, h3, ← Matrix.add_mul, ← Matrix.add_mul, ← Matrix.add_mul, ← Matrix.mul_add, ← Matrix.mul_add, ← Matrix.mul_add, ← Matrix.smul_mul,
    ← Matrix.mul_smul, algPart_rot _ _ (by rw [Matrix.conjTranspose_conjTranspose]; exact hg.left x), Matrix.conjTranspose_conjTranspose]

theorem sqNorm_rot (V M : Mat N) (hV : Vᴴ * V = 1) : sqNorm (V * M * Vᴴ) = sqNorm M := by
  rw [sqNorm_eq, sqNorm_eq]
  simp only [Matrix.conjTranspose_mul, Matrix.conjTranspose_conjTranspose, Matrix.mul_assoc]
  rw [← Matrix.mul_assoc Vᴴ V, hV, Matrix.one_mul, Matrix.trace_mul_comm]
  simp only [Matrix.mul_assoc]
  rw [hV, Matrix.mul_one]

/-- Transformed links are unitary. -/
theorem gaugeT_unitary {U : GField L N} (hU : IsUnitaryField U) {g : PSite L → Mat N} (hg : IsGauge g) : IsUnitaryField (gaugeT g U) := by
  intro d x
  exact mul_mem (mul_mem (hg x) (hU d x)) (Unitary.star_mem (hg _))

/-- The clover action in terms of the field strength. -/
theorem C58_action [∀ d, NeZero (L d)] (U : GField L N) (hU : IsUnitaryField U) :
    measureSClover U = (∑ d1, ∑ d2, if d1 < d2 then ∑ x, 1 / 2 * sqNorm (fieldStrength U d1 d2 x) else 0) / N := by
  unfold measureSClover
  congr 1
  refine Finset.sum_congr rfl fun d1 _ => Finset.sum_congr rfl fun d2 _ => ?_
  split_ifs
  · refine Finset.sum_congr rfl fun x _ => ?_
    rw [(C58_leaves U hU d1 d2 x).2]; norm_num
  · rfl

/-- The clover action is gauge invariant. -/
theorem C58_action_gauge [∀ d, NeZero (L d)] (U : GField L N) (hU : IsUnitaryField U) (g : PSite L → Mat N) (hg : IsGauge g) :
    measureSClover (gaugeT g U) = measureSClover U := by
  rw [C58_action U hU, C58_action _ (gaugeT_unitary hU hg)]
  refine congrArg (· / (N : ℝ)) ?_
  refine Finset.sum_congr rfl fun d1 _ => Finset.sum_congr rfl fun d2 _ => ?_
  split_ifs
  · refine Finset.sum_congr rfl fun x _ => ?_
    rw [C58_covariant U g hg, sqNorm_rot _ _ (hg.left x)]
  · rfl

/-! ### Force -/

theorem MDeriv.algPart {f : ℝ → Mat N} {f' : Mat N} (hf : MDeriv f f') : MDeriv (fun t => algPart (f t)) (algPart f') := by
  have h1 := (hf.sub hf.star).smul (1 / 2)
  have h2 : HasDerivAt (fun t => ((1 / 2 : ℂ) • (f t - (f t)ᴴ)).trace) ((1 / 2 : ℂ) • (f' - f'ᴴ)).trace 0 := by
    unfold Matrix.trace
    exact HasDerivAt.fun_sum fun k _ => h1 k k
  intro i j
  have h3 := (h1 i j).sub ((h2.div_const (N : ℂ)).mul_const ((1 : Mat N) i j))
  have e : ∀ A : Mat N, Hila.algPart A i j = ((1 / 2 : ℂ) • (A - Aᴴ)) i j - ((1 / 2 : ℂ) • (A - Aᴴ)).trace / (N : ℂ) * (1 : Mat N) i j := fun A => rfl
  simp only [e]
  exact h3

/-- The square of the norm of an element of the algebra. -/
theorem sqNorm_deriv (hN : 0 < N) {f : ℝ → Mat N} {f' : Mat N} (hf : MDeriv f f') :
    HasDerivAt (fun t => 1 / 2 * sqNorm (algPart (f t))) (-(f' * algPart (f 0)).trace.re) 0 := by
  simp only [sqNorm_eq]
  have h := (hf.algPart.star.mul hf.algPart).trace.const_mul (1 / 2 : ℝ)
  refine h.congr_deriv ?_
  have e1 : ((algPart f')ᴴ * algPart (f 0)).trace.re = ((algPart (f 0))ᴴ * algPart f').trace.re := by
    rw [← trace_re_star, Matrix.conjTranspose_mul, Matrix.conjTranspose_conjTranspose]
  rw [Matrix.trace_add, Complex.add_re, e1, algPart_conj, Matrix.neg_mul, Matrix.trace_neg, Complex.neg_re]
  have e2 : ∀ C : Mat N, Cᴴ = -C → C.trace = 0 → (C * algPart f').trace.re = (f' * C).trace.re := by
    intro C hC h0
    have e3 : (C * f'ᴴ).trace.re = -(f' * C).trace.re := by
      rw [← trace_re_star, Matrix.conjTranspose_mul, Matrix.conjTranspose_conjTranspose, hC, Matrix.mul_neg, Matrix.trace_neg, Complex.neg_re]
    unfold Hila.algPart
    rw [Matrix.mul_sub, Matrix.mul_smul, Matrix.mul_smul, Matrix.mul_one, Matrix.trace_sub, Matrix.trace_smul, Matrix.trace_smul, h0, smul_zero, sub_zero,
      Matrix.mul_sub, Matrix.trace_sub, smul_eq_mul, show (1 / 2 : ℂ) = ((1 / 2 : ℝ) : ℂ) by push_cast; ring, Complex.re_ofReal_mul, Complex.sub_re, e3,
      Matrix.trace_mul_comm]
    ring
  rw [e2 _ (algPart_conj _) (algPart_trace hN _)]
  ring

/-- The force of one plane. -/
theorem cloverPlane_run [∀ d, NeZero (L d)] (hN : 0 < N) {U : GField L N} (hU : IsUnitaryField U) (eps : ℝ) (a : AlgField L N)
    (K : AlgField L N) (p : Fin n × Fin n) : pairK a (cloverPlane U eps K p) = pairK a K +
      2 * eps * ∑ x, (((1 / 4 : ℂ) • (dpathM (fun d x => algMat (a d x)) U (leafPath p.1 p.2 0) x +
        dpathM (fun d x => algMat (a d x)) U (leafPath p.1 p.2 1) x + dpathM (fun d x => algMat (a d x)) U (leafPath p.1 p.2 2) x +
        dpathM (fun d x => algMat (a d x)) U (leafPath p.1 p.2 3) x)) * fieldStrength U p.1 p.2 x).trace.re := by
  have hd : ∀ k, (disp (leafPath p.1 p.2 k) : PSite L) = 0 := by
    intro k
    fin_cases k <;> (simp [leafPath, disp, stepVec])
  have step : ∀ (k : Fin 4) (K : AlgField L N),
      pairK a (wloopForceFromWl U (leafPath p.1 p.2 k) (fun x => (cloverLeaves U p.1 p.2).1 k x * (cloverLeaves U p.1 p.2).2 x) eps K) =
      pairK a K + 2 * eps * ∑ x, (dpathM (fun d x => algMat (a d x)) U (leafPath p.1 p.2 k) x * ((1 / 4 : ℂ) • fieldStrength U p.1 p.2 x)).trace.re := by
    intro k K
    have := force_run hN hU eps a (leafPath p.1 p.2 k) (fun x => (1 / 4 : ℂ) • fieldStrength U p.1 p.2 x)
      (fun x => (cloverLeaves U p.1 p.2).1 k x * (cloverLeaves U p.1 p.2).2 x) K (by
        intro x
        rw [hd, add_zero, (C58_leaves U hU p.1 p.2 x).1, (C58_leaves U hU p.1 p.2 x).2, Matrix.smul_mul, Matrix.mul_smul])
    rw [pairK_sub] at this
    simp only [hd, add_zero] at this
    linarith
  have e : cloverPlane U eps K p = [0, 1, 2, 3].foldl (fun K k => wloopForceFromWl U (leafPath p.1 p.2 k)
      (fun x => (cloverLeaves U p.1 p.2).1 k x * (cloverLeaves U p.1 p.2).2 x) eps K) K := rfl
  rw [e]
  simp only [List.foldl_cons, List.foldl_nil, step]
  rw [add_assoc, add_assoc, add_assoc, ← mul_add, ← mul_add, ← mul_add, ← Finset.sum_add_distrib, ← Finset.sum_add_distrib, ← Finset.sum_add_distrib]
  congr 2
  refine Finset.sum_congr rfl fun x _ => ?_
  simp only [Matrix.mul_smul, Matrix.smul_mul, Matrix.add_mul, Matrix.trace_add, Complex.add_re, Matrix.trace_smul, smul_add]
  ring

theorem sum_planes (f : Fin n × Fin n → ℝ) : ((planes n).map f).sum = ∑ d1, ∑ d2, if d1 < d2 then f (d1, d2) else 0 := by
  have e : ∀ l : List (Fin n), ((l.flatMap fun d1 => ((List.finRange n).filter (d1 < ·)).map fun d2 => (d1, d2)).map f).sum =
      (l.map fun d1 => ∑ d2, if d1 < d2 then f (d1, d2) else 0).sum := by
    intro l
    induction l with
    | nil => rfl
    | cons d1 l ih =>
      rw [List.flatMap_cons, List.map_append, List.sum_append, ih, List.map_cons, List.sum_cons]
      congr 1
      rw [List.map_map]
      have h2 : ∀ l2 : List (Fin n), ((l2.filter (d1 < ·)).map (f ∘ fun d2 => (d1, d2))).sum =
          (l2.map fun d2 => if d1 < d2 then f (d1, d2) else 0).sum := by
        intro l2
        induction l2 with
        | nil => rfl
        | cons d2 l2 ih2 =>
          rw [List.map_cons, List.sum_cons, ← ih2, List.filter_cons]
          by_cases h : d1 < d2
          · simp [h]
          · simp [h]
      rw [h2, ← List.ofFn_eq_map, List.sum_ofFn]
  unfold planes
  rw [e, ← List.ofFn_eq_map, List.sum_ofFn]

theorem forceClover_run [∀ d, NeZero (L d)] (hN : 0 < N) {U : GField L N} (hU : IsUnitaryField U) (eps : ℝ) (a K : AlgField L N) :
    pairK a (forceCloverAdd U K eps) = pairK a K + 2 * eps * ∑ d1, ∑ d2, if d1 < d2 then
      ∑ x, (((1 / 4 : ℂ) • (dpathM (fun d x => algMat (a d x)) U (leafPath d1 d2 0) x +
        dpathM (fun d x => algMat (a d x)) U (leafPath d1 d2 1) x + dpathM (fun d x => algMat (a d x)) U (leafPath d1 d2 2) x +
        dpathM (fun d x => algMat (a d x)) U (leafPath d1 d2 3) x)) * fieldStrength U d1 d2 x).trace.re else 0 := by
  rw [← sum_planes fun p => ∑ x, (((1 / 4 : ℂ) • (dpathM (fun d x => algMat (a d x)) U (leafPath p.1 p.2 0) x +
        dpathM (fun d x => algMat (a d x)) U (leafPath p.1 p.2 1) x + dpathM (fun d x => algMat (a d x)) U (leafPath p.1 p.2 2) x +
        dpathM (fun d x => algMat (a d x)) U (leafPath p.1 p.2 3) x)) * fieldStrength U p.1 p.2 x).trace.re]
  unfold forceCloverAdd
  generalize planes n = l
  induction l generalizing K with
  | nil => simp
  | cons p l ih =>
    rw [List.foldl_cons, ih, cloverPlane_run hN hU, List.map_cons, List.sum_cons]
    ring

/-- The force of the clover action is its gradient, with the same factor as for the other actions. -/
theorem C58_force [∀ d, NeZero (L d)] (hN : 0 < N) (U : ℝ → GField L N) (a : AlgField L N)
    (hU : LinkCurve U fun d x => expand (a d x)) (hu : ∀ t, IsUnitaryField (U t)) (eps : ℝ) (K : AlgField L N) :
    HasDerivAt (fun t => eps * measureSClover (U t)) (-(pairK a (forceClover (U 0) eps)) / (2 * N)) 0 ∧
    pairK a (forceCloverAdd (U 0) K eps) = pairK a K + pairK a (forceClover (U 0) eps) := by
  have z : pairK a (fun _ _ => (0 : Alg N)) = 0 := by simp [pairK]
  refine ⟨?_, ?_⟩
  · simp only [expand_eq hN] at hU
    simp only [C58_action _ (hu _)]
    unfold forceClover
    rw [forceClover_run hN (hu 0), z, zero_add]
    have hs : HasDerivAt (fun t => ∑ d1, ∑ d2, if d1 < d2 then ∑ x, 1 / 2 * sqNorm (fieldStrength (U t) d1 d2 x) else 0)
        (-∑ d1, ∑ d2, if d1 < d2 then
      ∑ x, (((1 / 4 : ℂ) • (dpathM (fun d x => algMat (a d x)) (U 0) (leafPath d1 d2 0) x +
        dpathM (fun d x => algMat (a d x)) (U 0) (leafPath d1 d2 1) x + dpathM (fun d x => algMat (a d x)) (U 0) (leafPath d1 d2 2) x +
        dpathM (fun d x => algMat (a d x)) (U 0) (leafPath d1 d2 3) x)) * fieldStrength (U 0) d1 d2 x).trace.re else 0) 0 := by
      rw [← Finset.sum_neg_distrib]
      refine HasDerivAt.fun_sum fun d1 _ => ?_
      rw [← Finset.sum_neg_distrib]
      refine HasDerivAt.fun_sum fun d2 _ => ?_
      split_ifs
      · rw [← Finset.sum_neg_distrib]
        refine HasDerivAt.fun_sum fun x _ => ?_
        exact sqNorm_deriv hN ((((((hU.path (leafPath d1 d2 0) x).add (hU.path (leafPath d1 d2 1) x)).add (hU.path (leafPath d1 d2 2) x)).add
          (hU.path (leafPath d1 d2 3) x))).smul (1 / 4))
      · rw [neg_zero]; exact hasDerivAt_const _ _
    refine ((hs.div_const (N : ℝ)).const_mul eps).congr_deriv ?_
    have : (N : ℝ) ≠ 0 := Nat.cast_ne_zero.2 (by omega)
    field_simp
  · unfold forceClover
    rw [forceClover_run hN (hu 0), forceClover_run hN (hu 0), z, zero_add]

/-! ### Charge and energy -/

/-- The charge code computes the same field strength in another way. -/
theorem C58_charge_field (U : GField L N) (hU : IsUnitaryField U) (d1 d2 : Fin n) (x : PSite L) :
    chargeF U d1 d2 x = fieldStrength U d1 d2 x := by
  have hp : ∀ x, lieProject (U d1 x * U d2 (x + unitStep d1) * (U d2 x * U d1 (x + unitStep d2)).conjTranspose) =
      algPart (pathM U [(d1, true), (d2, true), (d1, false), (d2, false)] x) := by
    intro x
    rw [lieProject_eq, leaf0]
    simp only [unitStep, Matrix.conjTranspose_mul, Matrix.mul_assoc]
  have h1 : ∀ x, (U d1 (x - unitStep d1))ᴴ * algPart (pathM U [(d1, true), (d2, true), (d1, false), (d2, false)] (x - unitStep d1)) * U d1 (x - unitStep d1) =
      algPart (pathM U [(d2, true), (d1, false), (d2, false), (d1, true)] x) := by
    intro x
    rw [← algPart_rot _ _ (hU.right _ _), leaf0, leaf1, cancelU hU]
    simp only [unitStep, sub_add_cancel, Matrix.mul_assoc]
  have h2 : (U d2 (x - unitStep d2))ᴴ * algPart (pathM U [(d2, true), (d1, false), (d2, false), (d1, true)] (x - unitStep d2)) * U d2 (x - unitStep d2) =
      algPart (pathM U [(d1, false), (d2, false), (d1, true), (d2, true)] x) := by
    rw [← algPart_rot _ _ (hU.right _ _), leaf1, leaf2, cancelU hU]
    simp only [unitStep, Matrix.mul_assoc]
    rw [show x - (Pi.single d2 1 : PSite L) - Pi.single d1 1 + Pi.single d2 1 = x - Pi.single d1 1 by abel]
  have h3 : (U d2 (x - unitStep d2))ᴴ * algPart (pathM U [(d1, true), (d2, true), (d1, false), (d2, false)] (x - unitStep d2)) * U d2 (x - unitStep d2) =
      algPart (pathM U [(d2, false), (d1, true), (d2, true), (d1, false)] x) := by
    rw [← algPart_rot _ _ (hU.right _ _), leaf0, leaf3]
    simp only [unitStep, Matrix.mul_assoc, sub_add_cancel, hU.left, Matrix.mul_one]
  unfold chargeF fieldStrength
  dsimp only
  simp only [hp, h1]
  rw [Matrix.mul_add, Matrix.add_mul, h2, h3]
  rw [show (1 / 4 : ℂ) = ((1 / 4 : ℝ) : ℂ) by push_cast; ring, algPart_smul, algPart_add, algPart_add, algPart_add]
  push_cast
  norm_num
  abel

theorem planes_four : planes 4 = [(0, 1), (0, 2), (0, 3), (1, 2), (1, 3), (2, 3)] := by decide +kernel

/-- The charge and the energy in terms of the field strength. -/
theorem C58_charge_energy {L : Fin 4 → ℕ} [∀ d, NeZero (L d)] (U : GField L N) (hU : IsUnitaryField U) :
    chargeEnergy U = some
      ((∑ x, ((fieldStrength U 0 1 x * fieldStrength U 2 3 x).trace.re - (fieldStrength U 0 2 x * fieldStrength U 1 3 x).trace.re +
        (fieldStrength U 0 3 x * fieldStrength U 1 2 x).trace.re)) / (4 * Real.pi ^ 2), 2 * N * measureSClover U) := by
  rcases Nat.eq_zero_or_pos N with rfl | hN
  · unfold chargeEnergy
    rw [planes_four]
    simp only [List.map_cons, List.map_nil, C58_charge_field U hU]
    simp [sqNorm, Matrix.trace]
  unfold chargeEnergy
  rw [planes_four]
  simp only [List.map_cons, List.map_nil, C58_charge_field U hU]
  congr 2
  · rw [show (4.0 : ℝ) * Real.pi * Real.pi = 4 * Real.pi ^ 2 by norm_num; ring]
    rfl
  · rw [C58_action U hU, mul_assoc, mul_div_cancel₀ _ (Nat.cast_ne_zero.2 (by omega : N ≠ 0))]
    simp only [Fin.sum_univ_four]
    simp only [show ((0 : Fin 4) < 0) = False from by decide, show ((0 : Fin 4) < 1) = True from by decide, show ((0 : Fin 4) < 2) = True from by decide,
      show ((0 : Fin 4) < 3) = True from by decide, show ((1 : Fin 4) < 0) = False from by decide, show ((1 : Fin 4) < 1) = False from by decide,
      show ((1 : Fin 4) < 2) = True from by decide, show ((1 : Fin 4) < 3) = True from by decide, show ((2 : Fin 4) < 0) = False from by decide,
      show ((2 : Fin 4) < 1) = False from by decide, show ((2 : Fin 4) < 2) = False from by decide, show ((2 : Fin 4) < 3) = True from by decide,
      show ((3 : Fin 4) < 0) = False from by decide, show ((3 : Fin 4) < 1) = False from by decide, show ((3 : Fin 4) < 2) = False from by decide,
      show ((3 : Fin 4) < 3) = False from by decide, if_true, if_false, Finset.sum_add_distrib, ← Finset.mul_sum]
    ring

/-- Charge and energy are gauge invariant. -/
theorem C58_charge_gauge {L : Fin 4 → ℕ} [∀ d, NeZero (L d)] (U : GField L N) (hU : IsUnitaryField U) (g : PSite L → Mat N) (hg : IsGauge g) :
    chargeEnergy (gaugeT g U) = chargeEnergy U := by
  rw [C58_charge_energy U hU, C58_charge_energy _ (gaugeT_unitary hU hg), C58_action_gauge U hU g hg]
  have e : ∀ (x : PSite L) (a b c d : Fin 4), (fieldStrength (gaugeT g U) a b x * fieldStrength (gaugeT g U) c d x).trace =
      (fieldStrength U a b x * fieldStrength U c d x).trace := by
    intro x a b c d
    rw [C58_covariant U g hg, C58_covariant U g hg]
    simp only [Matrix.mul_assoc, hg.cancel]
    rw [← Matrix.mul_assoc (fieldStrength U a b x), ← Matrix.mul_assoc (g x), trace_conj hg]
  simp only [e]

/-! ### Reflections -/

/-- Reflection of the coordinate `r`. -/
def reflSite (r : Fin n) (x : PSite L) : PSite L := fun d => if d = r then -x d else x d

/-- The reflected field. -/
def reflField (r : Fin n) (U : GField L N) : GField L N := fun d x =>
  if d = r then (U r (reflSite r x - Pi.single r 1))ᴴ else U d (reflSite r x)

/-- The reflected step. -/
def reflStep (r : Fin n) (s : PStep n) : PStep n := (s.1, if s.1 = r then !s.2 else s.2)

theorem reflSite_add (r : Fin n) (x y : PSite L) : reflSite r (x + y) = reflSite r x + reflSite r y := by
  funext e
  simp only [reflSite, Pi.add_apply]
  split_ifs
  · abel
  · rfl

theorem reflSite_single (r d : Fin n) : reflSite r (Pi.single d 1 : PSite L) = if d = r then -Pi.single d 1 else Pi.single d 1 := by
  funext e
  by_cases he : e = d
  · subst he
    by_cases h : e = r <;> simp [reflSite, h]
  · by_cases h : e = r <;> by_cases h2 : d = r <;> simp [reflSite, h, h2, he] <;> simp_all

theorem reflSite_neg (r : Fin n) (x : PSite L) : reflSite r (-x) = -reflSite r x := by
  funext e
  simp only [reflSite, Pi.neg_apply]
  split_ifs <;> rfl

theorem reflSite_step (r : Fin n) (x : PSite L) (s : PStep n) : reflSite r (x + stepVec s) = reflSite r x + stepVec (reflStep r s) := by
  obtain ⟨d, u⟩ := s
  rw [reflSite_add]
  congr 1
  unfold reflStep stepVec
  dsimp only
  cases u
  · rw [if_neg (by simp), reflSite_neg, reflSite_single]
    by_cases h : d = r
    · rw [if_pos h, if_pos (by simp [h]), neg_neg]
    · rw [if_neg h, if_neg (by simp [h])]
  · rw [if_pos rfl, reflSite_single]
    by_cases h : d = r
    · rw [if_pos h, if_neg (by simp [h])]
    · rw [if_neg h, if_pos (by simp [h])]

theorem reflField_link (r : Fin n) (U : GField L N) (s : PStep n) (x : PSite L) :
    linkM (reflField r U) s x = linkM U (reflStep r s) (reflSite r x) := by
  obtain ⟨d, u⟩ := s
  have hm : reflSite r (x - Pi.single d 1) = reflSite r x - (if d = r then -Pi.single d 1 else Pi.single d 1) := by
    rw [sub_eq_add_neg, reflSite_add, reflSite_neg, reflSite_single, ← sub_eq_add_neg]
  unfold linkM reflField reflStep
  dsimp only
  by_cases hd : d = r
  · subst hd
    rw [if_pos rfl] at hm
    cases u
    · rw [if_neg (by simp), if_pos rfl, if_pos (by simp), hm, sub_neg_eq_add, add_sub_cancel_right, Matrix.conjTranspose_conjTranspose]
    · rw [if_pos rfl, if_pos rfl, if_neg (by simp)]
  · rw [if_neg hd] at hm
    cases u
    · rw [if_neg (by simp), if_neg hd, if_neg (by simp [hd]), hm]
    · rw [if_pos rfl, if_neg hd, if_pos (by simp [hd])]

theorem reflField_path (r : Fin n) (U : GField L N) (l : List (PStep n)) (x : PSite L) :
    pathM (reflField r U) l x = pathM U (l.map (reflStep r)) (reflSite r x) := by
  induction l generalizing x with
  | nil => rfl
  | cons s l ih => rw [pathM, List.map_cons, pathM, reflField_link, ih, reflSite_step]

/-- The field strength of the reflected field changes its sign if the plane contains the direction. -/
theorem C58_reflect (r : Fin n) (U : GField L N) (d1 d2 : Fin n) (h : d1 ≠ d2) (x : PSite L) :
    fieldStrength (reflField r U) d1 d2 x =
      if d1 = r ∨ d2 = r then -fieldStrength U d1 d2 (reflSite r x) else fieldStrength U d1 d2 (reflSite r x) := by
  have rev : ∀ (l : List (PStep n)) (y : PSite L), disp l = (0 : PSite L) → pathM U (l.reverse.map PStep.opp) y = (pathM U l y)ᴴ := by
    intro l y hl
    have := C56_reverse U l y
    rwa [hl, add_zero] at this
  have hd : ∀ k, (disp (leafPath d1 d2 k) : PSite L) = 0 := by
    intro k
    fin_cases k <;> (simp [leafPath, disp, stepVec])
  have r0 := fun y => rev (leafPath d1 d2 0) y (hd 0)
  have r1 := fun y => rev (leafPath d1 d2 1) y (hd 1)
  have r2 := fun y => rev (leafPath d1 d2 2) y (hd 2)
  have r3 := fun y => rev (leafPath d1 d2 3) y (hd 3)
  simp only [leafPath, Matrix.cons_val, List.reverse_cons, List.reverse_nil, List.nil_append, List.cons_append, List.map_cons, List.map_nil, PStep.opp,
    Bool.not_true, Bool.not_false] at r0 r1 r2 r3
  unfold fieldStrength
  simp only [reflField_path, List.map_cons, List.map_nil, reflStep]
  have hs : ∀ A : Mat N, ((1 / 4 : ℂ) • A)ᴴ = (1 / 4 : ℂ) • Aᴴ := by
    intro A
    rw [Matrix.conjTranspose_smul]
    congr 1
    rw [show (1 / 4 : ℂ) = ((1 / 4 : ℝ) : ℂ) by push_cast; ring]; exact Complex.conj_ofReal _
  by_cases h1 : d1 = r
  · have h2 : d2 ≠ r := fun e => h (h1.trans e.symm)
    simp only [if_pos h1, if_neg h2, Bool.not_true, Bool.not_false]
    rw [if_pos (Or.inl h1), ← algPart_star, r1, r0, r3, r2, hs]
    simp only [Matrix.conjTranspose_add]
    congr 2
    abel
  · by_cases h2 : d2 = r
    · simp only [if_neg h1, if_pos h2, Bool.not_true, Bool.not_false]
      rw [if_pos (Or.inr h2), ← algPart_star, r3, r2, r1, r0, hs]
      simp only [Matrix.conjTranspose_add]
      congr 2
      abel
    · simp only [if_neg h1, if_neg h2]
      rw [if_neg (by tauto)]

theorem reflSite_refl (r : Fin n) (x : PSite L) : reflSite r (reflSite r x) = x := by
  funext e
  simp only [reflSite]
  split_ifs
  · exact neg_neg _
  · rfl

theorem sum_refl [∀ d, NeZero (L d)] (r : Fin n) (f : PSite L → ℝ) : ∑ x, f (reflSite r x) = ∑ x, f x :=
  Fintype.sum_equiv ⟨reflSite r, reflSite r, reflSite_refl r, reflSite_refl r⟩ _ _ fun _ => rfl

theorem reflField_unitary {U : GField L N} (hU : IsUnitaryField U) (r : Fin n) : IsUnitaryField (reflField r U) := by
  intro d x
  unfold reflField
  split_ifs
  · exact Unitary.star_mem (hU _ _)
  · exact hU _ _

/-- A reflection of any axis changes the sign of the topological charge and leaves the energy. -/
theorem C58_charge_reflect {L : Fin 4 → ℕ} [∀ d, NeZero (L d)] (U : GField L N) (hU : IsUnitaryField U) (r : Fin 4) :
    chargeEnergy (reflField r U) = (chargeEnergy U).map fun q => (-q.1, q.2) := by
  have hsq : ∀ M : Mat N, sqNorm (-M) = sqNorm M := by
    intro M; unfold sqNorm; simp
  have hE : measureSClover (reflField r U) = measureSClover U := by
    rw [C58_action U hU, C58_action _ (reflField_unitary hU r)]
    refine congrArg (· / (N : ℝ)) ?_
    refine Finset.sum_congr rfl fun d1 _ => Finset.sum_congr rfl fun d2 _ => ?_
    split_ifs with h
    · rw [← sum_refl r fun x => 1 / 2 * sqNorm (fieldStrength U d1 d2 x)]
      refine Finset.sum_congr rfl fun x _ => ?_
      rw [C58_reflect r U d1 d2 h.ne]
      split_ifs
      · rw [hsq]
      · rfl
    · rfl
  rw [C58_charge_energy U hU, C58_charge_energy _ (reflField_unitary hU r), hE, Option.map_some]
  refine congrArg some (Prod.ext ?_ rfl)
  dsimp only
  rw [← neg_div, ← Finset.sum_neg_distrib, ← sum_refl r fun x => -((fieldStrength U 0 1 x * fieldStrength U 2 3 x).trace.re - (fieldStrength U 0 2 x * fieldStrength U 1 3 x).trace.re +
        (fieldStrength U 0 3 x * fieldStrength U 1 2 x).trace.re)]
  refine congrArg (· / _) (Finset.sum_congr rfl fun x _ => ?_)
  rw [C58_reflect r U 0 1 (by decide), C58_reflect r U 2 3 (by decide), C58_reflect r U 0 2 (by decide), C58_reflect r U 1 3 (by decide),
    C58_reflect r U 0 3 (by decide), C58_reflect r U 1 2 (by decide)]
  have e : ∀ A B : Mat N, ((-A) * B).trace.re = -(A * B).trace.re ∧ (A * (-B)).trace.re = -(A * B).trace.re := by
    intro A B
    rw [Matrix.neg_mul, Matrix.mul_neg, Matrix.trace_neg, Complex.neg_re]; exact ⟨rfl, rfl⟩
  fin_cases r <;> simp [e] <;> ring

/-- Constant links of a small lattice: the hypotheses hold, also for the curve of C57. -/
example : IsUnitaryField (fun _ _ => (1 : Mat 3) : GField (fun _ : Fin 4 => 2) 3) := fun _ _ => one_mem _

end Hila
