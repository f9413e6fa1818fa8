import Verif.Model.Force
import Verif.Lemmas.SUN
import Verif.Props.Gauge
import Mathlib.Analysis.Calculus.Deriv.Mul
import Mathlib.Analysis.Calculus.Deriv.Add
import Mathlib.Analysis.Calculus.Deriv.Star
import Mathlib.Analysis.Complex.Basic
import Mathlib.Analysis.Calculus.FDeriv.Linear
import Mathlib.Analysis.Calculus.Deriv.Comp

/-!
# Derivatives of products of links
-/

set_option linter.unusedSectionVars false

namespace Hila

open Matrix

variable {n : ℕ} {L : Fin n → ℕ} {N : ℕ}

/-! ### Matrices that depend on a parameter -/

/-- The elements of `f` have the derivatives `f'` at 0. -/
def MDeriv (f : ℝ → Mat N) (f' : Mat N) : Prop := ∀ i j, HasDerivAt (fun t => f t i j) (f' i j) 0

theorem MDeriv.mul {f g : ℝ → Mat N} {f' g' : Mat N} (hf : MDeriv f f') (hg : MDeriv g g') :
    MDeriv (fun t => f t * g t) (f' * g 0 + f 0 * g') := by
  intro i j
  simp only [Matrix.add_apply, Matrix.mul_apply, ← Finset.sum_add_distrib]
  exact HasDerivAt.fun_sum fun k _ => (hf i k).mul (hg k j)

theorem MDeriv.star {f : ℝ → Mat N} {f' : Mat N} (hf : MDeriv f f') : MDeriv (fun t => (f t)ᴴ) f'ᴴ := by
  intro i j
  exact (hf j i).star

theorem MDeriv.const (c : Mat N) : MDeriv (fun _ => c) 0 := fun i j => hasDerivAt_const _ _

theorem MDeriv.add {f g : ℝ → Mat N} {f' g' : Mat N} (hf : MDeriv f f') (hg : MDeriv g g') :
    MDeriv (fun t => f t + g t) (f' + g') := fun i j => (hf i j).add (hg i j)

theorem MDeriv.sub {f g : ℝ → Mat N} {f' g' : Mat N} (hf : MDeriv f f') (hg : MDeriv g g') :
    MDeriv (fun t => f t - g t) (f' - g') := fun i j => (hf i j).sub (hg i j)

theorem MDeriv.smul {f : ℝ → Mat N} {f' : Mat N} (hf : MDeriv f f') (c : ℂ) : MDeriv (fun t => c • f t) (c • f') :=
  fun i j => (hf i j).const_mul c

theorem MDeriv.trace {f : ℝ → Mat N} {f' : Mat N} (hf : MDeriv f f') : HasDerivAt (fun t => (f t).trace.re) f'.trace.re 0 := by
  have h : HasDerivAt (fun t => (f t).trace) f'.trace 0 := by
    unfold Matrix.trace
    exact HasDerivAt.fun_sum fun k _ => hf k k
  exact Complex.reCLM.hasFDerivAt.comp_hasDerivAt 0 h

/-! ### Path ordered products -/

/-- The displacement of a step. -/
def stepVec (s : PStep n) : PSite L := if s.2 then Pi.single s.1 1 else -Pi.single s.1 1

/-- The matrix of the link from `x` to `x + s`: a link is used against its direction as its adjoint. -/
def linkM (U : GField L N) (s : PStep n) (x : PSite L) : Mat N :=
  if s.2 then U s.1 x else (U s.1 (x - Pi.single s.1 1))ᴴ

/-- The displacement of a path. -/
def disp : List (PStep n) → PSite L
  | [] => 0
  | s :: l => stepVec s + disp l

/-- The product of the links along a path that starts at `x`. -/
def pathM (U : GField L N) : List (PStep n) → PSite L → Mat N
  | [], _ => 1
  | s :: l, x => linkM U s x * pathM U l (x + stepVec s)

theorem disp_append (l1 l2 : List (PStep n)) : disp (l1 ++ l2) = (disp l1 + disp l2 : PSite L) := by
  induction l1 with
  | nil => simp [disp]
  | cons s l ih => simp only [List.cons_append, disp, ih]; abel

theorem pathM_append (U : GField L N) (l1 l2 : List (PStep n)) (x : PSite L) :
    pathM U (l1 ++ l2) x = pathM U l1 x * pathM U l2 (x + disp l1) := by
  induction l1 generalizing x with
  | nil => simp [disp, pathM]
  | cons s l ih => simp only [List.cons_append, disp, pathM, ih, Matrix.mul_assoc, add_assoc]

/-- Derivative of a link matrix when `U' = A U`. -/
def dlinkM (A U : GField L N) (s : PStep n) (x : PSite L) : Mat N :=
  if s.2 then A s.1 x * U s.1 x else (A s.1 (x - Pi.single s.1 1) * U s.1 (x - Pi.single s.1 1))ᴴ

/-- Derivative of a path ordered product. -/
def dpathM (A U : GField L N) : List (PStep n) → PSite L → Mat N
  | [], _ => 0
  | s :: l, x => dlinkM A U s x * pathM U l (x + stepVec s) + linkM U s x * dpathM A U l (x + stepVec s)

/-- A curve in the space of links with derivative `A U` at 0. -/
def LinkCurve (U : ℝ → GField L N) (A : GField L N) : Prop := ∀ d x, MDeriv (fun t => U t d x) (A d x * U 0 d x)

theorem LinkCurve.link {U : ℝ → GField L N} {A : GField L N} (h : LinkCurve U A) (s : PStep n) (x : PSite L) :
    MDeriv (fun t => linkM (U t) s x) (dlinkM A (U 0) s x) := by
  unfold linkM dlinkM
  split_ifs
  · exact h _ _
  · exact (h _ _).star

theorem LinkCurve.path {U : ℝ → GField L N} {A : GField L N} (h : LinkCurve U A) (l : List (PStep n)) (x : PSite L) :
    MDeriv (fun t => pathM (U t) l x) (dpathM A (U 0) l x) := by
  induction l generalizing x with
  | nil => exact MDeriv.const 1
  | cons s l ih => exact (h.link s x).mul (ih _)

/-! ### The force of a loop -/

/-- The scalar product of two fields in the algebra. -/
noncomputable def pairK [∀ d, NeZero (L d)] (a K : AlgField L N) : ℝ := ∑ d, ∑ x, ∑ k, a d x k * K d x k

theorem pairK_sub [∀ d, NeZero (L d)] (a K K' : AlgField L N) : pairK a (K - K') = pairK a K - pairK a K' := by
  unfold pairK
  simp only [Pi.sub_apply, mul_sub, Finset.sum_sub_distrib]

theorem pairK_add [∀ d, NeZero (L d)] (a K K' : AlgField L N) : pairK a (K + K') = pairK a K + pairK a K' := by
  unfold pairK
  simp only [Pi.add_apply, mul_add, Finset.sum_add_distrib]

/-- Coefficients of a matrix and the derivative in the direction `a`. -/
theorem sum_coef (hN : 0 < N) (a : Alg N) (F : Mat N) (eps : ℝ) :
    ∑ k, a k * projectScaled F eps k = -(2 * eps * (algMat a * F).trace.re) := by
  rw [projectScaled_eq hN]
  unfold algMat coef
  rw [Finset.sum_mul, Matrix.trace_sum, Complex.re_sum, Finset.mul_sum, ← Finset.sum_neg_distrib]
  refine Finset.sum_congr rfl fun k _ => ?_
  dsimp only
  rw [genAt_conj, Matrix.neg_mul, Matrix.trace_neg, Complex.neg_re, Matrix.smul_mul, Matrix.trace_smul, smul_eq_mul, Complex.re_ofReal_mul]
  ring

theorem algMat_star (a : Alg N) : (algMat a)ᴴ = -algMat a := algMat_conj a

/-- Unitary links. -/
def IsUnitaryField (U : GField L N) : Prop := ∀ d x, U d x ∈ Matrix.unitaryGroup (Fin N) ℂ

theorem IsUnitaryField.left {U : GField L N} (h : IsUnitaryField U) (d : Fin n) (x : PSite L) : (U d x)ᴴ * U d x = 1 := by
  have := (Matrix.mem_unitaryGroup_iff').1 (h d x)
  rwa [Matrix.star_eq_conjTranspose] at this

theorem IsUnitaryField.right {U : GField L N} (h : IsUnitaryField U) (d : Fin n) (x : PSite L) : U d x * (U d x)ᴴ = 1 := by
  have := (Matrix.mem_unitaryGroup_iff).1 (h d x)
  rwa [Matrix.star_eq_conjTranspose] at this

/-- The transport of a field by a step. -/
theorem linkM_unitary {U : GField L N} (h : IsUnitaryField U) (s : PStep n) (x : PSite L) : (linkM U s x)ᴴ * linkM U s x = 1 := by
  unfold linkM
  split_ifs
  · exact h.left _ _
  · rw [Matrix.conjTranspose_conjTranspose]; exact h.right _ _

/-- `forceStep` in terms of the link matrix. -/
theorem forceStep_fst (U : GField L N) (eps : ℝ) (st : (PSite L → Mat N) × AlgField L N) (s : PStep n) (x : PSite L) :
    (forceStep U eps st s).1 x = (linkM U s (x - stepVec s))ᴴ * st.1 (x - stepVec s) * linkM U s (x - stepVec s) := by
  unfold forceStep linkM stepVec unitStep
  split_ifs with h
  · rfl
  · dsimp only
    rw [sub_neg_eq_add, add_sub_cancel_right, Matrix.conjTranspose_conjTranspose]

theorem sum_shift [∀ d, NeZero (L d)] {M : Type} [AddCommMonoid M] (v : PSite L) (f : PSite L → M) : ∑ x, f (x + v) = ∑ x, f x :=
  Fintype.sum_equiv (Equiv.addRight v) _ _ fun _ => rfl

theorem forceStep_snd [∀ d, NeZero (L d)] (hN : 0 < N) {U : GField L N} (hU : IsUnitaryField U) (eps : ℝ) (a : AlgField L N)
    (s : PStep n) (R V : PSite L → Mat N) (K : AlgField L N) (hR : ∀ x, R x = linkM U s x * V x) :
    pairK a ((forceStep U eps (R, K) s).2 - K) =
      2 * eps * ∑ x, (dlinkM (fun d x => algMat (a d x)) U s x * V x).trace.re := by
  have key : ∀ F : PSite L → Alg N, pairK a (fun d x => if d = s.1 then F x else 0) = ∑ x, ∑ k, a s.1 x k * F x k := by
    intro F
    unfold pairK
    rw [Finset.sum_eq_single s.1]
    · simp
    · intro d _ hd
      refine Finset.sum_eq_zero fun x _ => Finset.sum_eq_zero fun k _ => ?_
      dsimp only
      rw [if_neg hd, Pi.zero_apply, mul_zero]
    · intro h; exact absurd (Finset.mem_univ _) h
  obtain ⟨d, up⟩ := s
  cases up with
  | true =>
    have : (forceStep U eps (R, K) (d, true)).2 - K = fun d' x => if d' = d then -projectScaled (R x) eps else 0 := by
      funext d' x
      simp only [forceStep, if_true, Pi.sub_apply]
      split_ifs
      · abel
      · abel
    rw [this, key, Finset.mul_sum]
    refine Finset.sum_congr rfl fun x _ => ?_
    simp only [Pi.neg_apply, mul_neg, Finset.sum_neg_distrib]
    rw [sum_coef hN, neg_neg, hR]
    simp only [dlinkM, linkM, if_true, Matrix.mul_assoc]
  | false =>
    have : (forceStep U eps (R, K) (d, false)).2 - K =
        fun d' x => if d' = d then projectScaled (U d x * R (x + unitStep d) * (U d x)ᴴ) eps else 0 := by
      funext d' x
      simp only [forceStep, Bool.false_eq_true, if_false, Pi.sub_apply]
      split_ifs
      · abel
      · abel
    rw [this, key, Finset.mul_sum, ← sum_shift (unitStep d) (fun x => 2 * eps * _)]
    refine Finset.sum_congr rfl fun x _ => ?_
    rw [sum_coef hN, hR]
    simp only [dlinkM, linkM, Bool.false_eq_true, if_false, unitStep, add_sub_cancel_right]
    rw [← Matrix.mul_assoc (U d x), hU.right, Matrix.one_mul, Matrix.conjTranspose_mul, algMat_star, Matrix.mul_neg, Matrix.neg_mul, Matrix.trace_neg,
      Complex.neg_re, mul_neg]
    congr 2
    rw [← Matrix.mul_assoc, Matrix.trace_mul_comm, ← Matrix.mul_assoc]

/-- The sum of the contributions of all links of a path, for a field that is the path times the way back `Q`. -/
theorem force_run [∀ d, NeZero (L d)] (hN : 0 < N) {U : GField L N} (hU : IsUnitaryField U) (eps : ℝ) (a : AlgField L N) :
    ∀ (l : List (PStep n)) (Q R : PSite L → Mat N) (K : AlgField L N), (∀ x, R x = pathM U l x * Q (x + disp l)) →
    pairK a (wloopForceFromWl U l R eps K - K) =
      2 * eps * ∑ x, (dpathM (fun d x => algMat (a d x)) U l x * Q (x + disp l)).trace.re := by
  intro l
  induction l with
  | nil =>
    intro Q R K hR
    simp [wloopForceFromWl, dpathM, pairK]
  | cons s l ih =>
    intro Q R K hR
    obtain ⟨R1, hR1⟩ : ∃ R1, R1 = (forceStep U eps (R, K) s).1 := ⟨_, rfl⟩
    obtain ⟨K1, hK1⟩ : ∃ K1, K1 = (forceStep U eps (R, K) s).2 := ⟨_, rfl⟩
    have e1 : wloopForceFromWl U (s :: l) R eps K = wloopForceFromWl U l R1 eps K1 := by
      rw [hR1, hK1]; rfl
    have hstep := forceStep_snd hN hU eps a s R (fun x => pathM U l (x + stepVec s) * Q (x + disp (s :: l))) K
      (fun x => by rw [hR, pathM, Matrix.mul_assoc])
    rw [← hK1] at hstep
    have hrest := ih (fun y => Q y * linkM U s (y - disp l - stepVec s)) R1 K1 (by
      intro x
      rw [hR1, forceStep_fst]
      dsimp only
      rw [hR, pathM, disp, add_sub_cancel_right]
      rw [show x - stepVec s + (stepVec s + disp l) = x + disp l by abel, show x - stepVec s + stepVec s = x by abel]
      rw [← Matrix.mul_assoc, ← Matrix.mul_assoc, linkM_unitary hU, Matrix.one_mul, Matrix.mul_assoc])
    have e2 : wloopForceFromWl U (s :: l) R eps K - K = (wloopForceFromWl U l R1 eps K1 - K1) + (K1 - K) := by rw [e1]; abel
    rw [e2, pairK_add, hrest, hstep, ← mul_add]
    rw [← sum_shift (stepVec s) (fun x => (dpathM (fun d x => algMat (a d x)) U l x * (Q (x + disp l) * linkM U s (x + disp l - disp l - stepVec s))).trace.re)]
    rw [← Finset.sum_add_distrib]
    congr 1
    refine Finset.sum_congr rfl fun x _ => ?_
    rw [dpathM, Matrix.add_mul, Matrix.trace_add, Complex.add_re, add_comm, Matrix.mul_assoc (dlinkM _ _ _ _)]
    congr 2
    rw [show x + stepVec s + disp l - disp l - stepVec s = x by abel, ← Matrix.mul_assoc, Matrix.trace_mul_comm, disp, add_assoc, Matrix.mul_assoc]

end Hila
