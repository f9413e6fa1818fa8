import Verif.Lemmas.Force
import Mathlib.Analysis.SpecialFunctions.Exponential
import Mathlib.Analysis.Matrix.Normed
import Mathlib.Analysis.Normed.Algebra.MatrixExponential

/-!
# Wilson lines and gauge forces: C56, C57

`pathM U path x` is the product of the links along the path that starts at `x`, `disp path` the displacement of the path.
`LinkCurve U A` says that `t ↦ U t` is a curve of link fields with `dU/dt = A U` at `t = 0`. `pairK a K` is the sum of
`a * K` over all links and components. A force belongs to an action if along each curve the derivative of the action is
the product with the force, up to the fixed factor that the integrator uses.
-/

set_option linter.unusedSectionVars false

namespace Hila

open Matrix

variable {n : ℕ} {L : Fin n → ℕ} {N : ℕ}

/-! ## Wilson lines -/

theorem wilsonFirst_eq (U : GField L N) (s : PStep n) (x : PSite L) : wilsonFirst U s x = pathM U [s] (x - disp [s]) := by
  unfold wilsonFirst
  simp only [pathM, disp, linkM, stepVec, unitStep, Matrix.mul_one, add_zero]
  split_ifs
  · rfl
  · rw [sub_neg_eq_add, add_sub_cancel_right]

theorem wilsonMult_eq (U : GField L N) (l : List (PStep n)) (R : PSite L → Mat N) (s : PStep n)
    (hR : ∀ x, R x = pathM U l (x - disp l)) (x : PSite L) : wilsonMult U R s x = pathM U (l ++ [s]) (x - disp (l ++ [s])) := by
  rw [pathM_append, disp_append]
  unfold wilsonMult
  simp only [pathM, disp, linkM, stepVec, unitStep, Matrix.mul_one, add_zero, hR]
  split_ifs
  · congr 2
    · abel
    · abel
  · congr 2
    · abel
    · congr 1; abel

theorem wilsonFold_eq (U : GField L N) (l : List (PStep n)) : ∀ (l0 : List (PStep n)) (R : PSite L → Mat N),
    (∀ x, R x = pathM U l0 (x - disp l0)) → ∀ x, l.foldl (wilsonMult U) R x = pathM U (l0 ++ l) (x - disp (l0 ++ l)) := by
  induction l with
  | nil => intro l0 R h x; simpa using h x
  | cons s l ih =>
    intro l0 R h x
    rw [List.foldl_cons, ih (l0 ++ [s]) _ (wilsonMult_eq U l0 R s h), List.append_assoc]
    rfl

/-- The value at each site is the product of the links along the path that ends there. -/
theorem C56_wilson_line (U : GField L N) (path : List (PStep n)) (h : 2 ≤ path.length) :
    getWilsonLine U path = some fun x => pathM U path (x - disp path) := by
  obtain ⟨s0, l, rfl⟩ : ∃ s0 l, path = s0 :: l := by
    cases path with
    | nil => simp at h
    | cons s0 l => exact ⟨s0, l, rfl⟩
  rcases List.eq_nil_or_concat l with rfl | ⟨l', s, rfl⟩
  · simp at h
  have hi : max 1 ((s0 :: (l'.concat s)).length - 1) = l'.length + 1 := by simp
  have ht : ((s0 :: (l'.concat s)).drop 1).take ((s0 :: (l'.concat s)).length - 2) = l' := by simp
  unfold getWilsonLine
  rw [hi, ht]
  simp only [List.getElem?_cons_zero, Option.bind_some, List.concat_eq_append, List.getElem?_cons_succ,
    List.getElem?_concat_length, Option.map_some]
  congr 1
  funext x
  rw [wilsonMult_eq U ([s0] ++ l') _ s (wilsonFold_eq U l' [s0] _ (wilsonFirst_eq U s0))]
  rfl

/-- Paths without links or with one link are not handled: an element outside of the path is read. -/
theorem C56_short (U : GField L N) (path : List (PStep n)) (h : path.length < 2) : getWilsonLine U path = none := by
  match path, h with
  | [], _ => rfl
  | [s], _ => rfl
  | _ :: _ :: _, h => simp at h

/-- Transformation of a path ordered product. -/
theorem C56_covariant (U : GField L N) (g : PSite L → Mat N) (hg : IsGauge g) (path : List (PStep n)) (x : PSite L) :
    pathM (gaugeT g U) path x = g x * pathM U path x * (g (x + disp path))ᴴ := by
  induction path generalizing x with
  | nil => simp [pathM, disp, hg.right]
  | cons s l ih =>
    rw [pathM, ih, pathM, disp]
    have e : linkM (gaugeT g U) s x = g x * linkM U s x * (g (x + stepVec s))ᴴ := by
      unfold linkM stepVec gaugeT
      split_ifs
      · rfl
      · rw [sub_add_cancel, Matrix.conjTranspose_mul, Matrix.conjTranspose_mul, Matrix.conjTranspose_conjTranspose,
          Matrix.mul_assoc, ← sub_eq_add_neg]
    rw [e, add_assoc]
    simp only [Matrix.mul_assoc, hg.cancel]

/-- Both at once for the code: lines transform at their ends, and traces of closed paths do not change. -/
theorem C56_wilson_line_gauge (U : GField L N) (g : PSite L → Mat N) (hg : IsGauge g) (path : List (PStep n))
    (h : 2 ≤ path.length) : ∃ R R', getWilsonLine U path = some R ∧ getWilsonLine (gaugeT g U) path = some R' ∧
      (∀ x, R' x = g (x - disp path) * R x * (g x)ᴴ) ∧ (disp path = (0 : PSite L) → ∀ x, (R' x).trace = (R x).trace) := by
  refine ⟨_, _, C56_wilson_line U path h, C56_wilson_line _ path h, fun x => ?_, fun h0 x => ?_⟩
  · rw [C56_covariant U g hg, sub_add_cancel]
  · rw [C56_covariant U g hg, sub_add_cancel, h0, sub_zero, trace_conj hg]

/-- A path that is walked back. -/
theorem C56_reverse (U : GField L N) (path : List (PStep n)) (x : PSite L) :
    pathM U (path.reverse.map PStep.opp) (x + disp path) = (pathM U path x)ᴴ := by
  induction path generalizing x with
  | nil => simp [pathM]
  | cons s l ih =>
    have hd : ∀ l : List (PStep n), (disp (l.reverse.map PStep.opp) : PSite L) = -disp l := by
      intro l
      induction l with
      | nil => simp [disp]
      | cons s l ih =>
        rw [List.reverse_cons, List.map_append, disp_append, ih]
        simp only [List.map_cons, List.map_nil, disp, add_zero]
        have : (stepVec s.opp : PSite L) = -stepVec s := by
          obtain ⟨d, u⟩ := s
          cases u
          · exact (neg_neg _).symm
          · rfl
        rw [this]; abel
    rw [List.reverse_cons, List.map_append, pathM_append, disp, ← add_assoc, ih, hd, pathM, Matrix.conjTranspose_mul]
    congr 1
    simp only [List.map_cons, List.map_nil, pathM, Matrix.mul_one]
    obtain ⟨d, u⟩ := s
    cases u
    · simp [linkM, PStep.opp, stepVec]
      congr 1; abel
    · simp [linkM, PStep.opp, stepVec]
      exact congrArg (U d) (add_sub_cancel_right x (Pi.single d 1))

/-! ## Forces -/

/-- Exponentials are such curves. -/
theorem exp_curve (U A : GField L N) : LinkCurve (fun t d x => NormedSpace.exp ((t : ℝ) • A d x) * U d x) A := by
  let : NormedRing (Mat N) := Matrix.linftyOpNormedRing
  let : NormedAlgebra ℝ (Mat N) := Matrix.linftyOpNormedAlgebra
  let : NormedAlgebra ℚ (Mat N) := Matrix.linftyOpNormedAlgebra
  intro d x i j
  have h := (hasDerivAt_exp_smul_const' (𝕂 := ℝ) (A d x) (0 : ℝ)).mul_const (U d x)
  rw [zero_smul, NormedSpace.exp_zero, Matrix.mul_one] at h
  have h2 := (LinearMap.toContinuousLinearMap (Matrix.entryLinearMap ℝ ℂ i j)).hasFDerivAt.comp_hasDerivAt (0 : ℝ) h
  have e : NormedSpace.exp ((0 : ℝ) • A d x) * U d x = U d x := by rw [zero_smul, NormedSpace.exp_zero, Matrix.one_mul]
  show HasDerivAt (fun t : ℝ => (NormedSpace.exp ((t : ℝ) • A d x) * U d x) i j) ((A d x * (NormedSpace.exp ((0 : ℝ) • A d x) * U d x)) i j) 0
  rw [e]
  exact h2

/-- Derivative of the sum of the traces of a path. -/
theorem path_sum_deriv [∀ d, NeZero (L d)] {U : ℝ → GField L N} {A : GField L N} (h : LinkCurve U A) (l : List (PStep n)) :
    HasDerivAt (fun t => ∑ x, (pathM (U t) l x).trace.re) (∑ x, (dpathM A (U 0) l x).trace.re) 0 :=
  HasDerivAt.fun_sum fun x _ => (h.path l x).trace

/-- `wloop_force`: for each closed path the product of the force with `a` is twice the derivative of `eps` times the sum of the real
traces of the loop. -/
theorem C57_wloop [∀ d, NeZero (L d)] (hN : 0 < N) (U : ℝ → GField L N) (a : AlgField L N)
    (hU : LinkCurve U fun d x => expand (a d x)) (hu : IsUnitaryField (U 0)) (path : List (PStep n)) (hl : 2 ≤ path.length)
    (hc : disp path = (0 : PSite L)) (eps : ℝ) (K : AlgField L N) :
    ∃ K', wloopForceAdd (U 0) path eps K = some K' ∧
      HasDerivAt (fun t => eps * ∑ x, (pathM (U t) path x).trace.re) ((pairK a K' - pairK a K) / 2) 0 := by
  refine ⟨_, by unfold wloopForceAdd; rw [C56_wilson_line _ _ hl]; rfl, ?_⟩
  rw [← pairK_sub, force_run hN hu eps a path (fun _ => 1) _ K (fun x => by rw [hc, sub_zero, Matrix.mul_one])]
  have := (path_sum_deriv hU path).const_mul eps
  simp only [expand_eq hN] at this
  refine this.congr_deriv ?_
  simp only [Matrix.mul_one]
  ring

/-- The same with a given Wilson line. -/
theorem C57_wloop_from_wl [∀ d, NeZero (L d)] (hN : 0 < N) (U : ℝ → GField L N) (a : AlgField L N)
    (hU : LinkCurve U fun d x => expand (a d x)) (hu : IsUnitaryField (U 0)) (path : List (PStep n)) (hc : disp path = (0 : PSite L))
    (W : PSite L → Mat N) (hW : ∀ x, W x = pathM (U 0) path x) (eps : ℝ) (K : AlgField L N) :
    HasDerivAt (fun t => eps * ∑ x, (pathM (U t) path x).trace.re) ((pairK a (wloopForceFromWl (U 0) path W eps K) - pairK a K) / 2) 0 := by
  rw [← pairK_sub, force_run hN hu eps a path (fun _ => 1) _ K (fun x => by rw [hW, Matrix.mul_one])]
  have := (path_sum_deriv hU path).const_mul eps
  simp only [expand_eq hN] at this
  refine this.congr_deriv ?_
  simp only [Matrix.mul_one]
  ring

/-! ### The plaquette action -/

/-- Staples of link `d1` in the plane of `d1` and `d2`. -/
def rterm (U : GField L N) (d1 d2 : Fin n) (x : PSite L) : Mat N :=
  U d2 (x + Pi.single d1 1) * (U d1 (x + Pi.single d2 1))ᴴ * (U d2 x)ᴴ +
    (U d2 (x - Pi.single d2 1 + Pi.single d1 1))ᴴ * (U d1 (x - Pi.single d2 1))ᴴ * U d2 (x - Pi.single d2 1)

theorem trace_re_star (M : Mat N) : (Mᴴ).trace.re = M.trace.re := by
  rw [Matrix.trace_conjTranspose]; exact Complex.conj_re _

/-- Derivative of the plaquettes of a plane. -/
theorem plaq_deriv [∀ d, NeZero (L d)] {U : ℝ → GField L N} {A : GField L N} (h : LinkCurve U A) (d1 d2 : Fin n) :
    HasDerivAt (fun t => ∑ x, (U t d1 x * U t d2 (x + unitStep d1) * (U t d2 x * U t d1 (x + unitStep d2)).conjTranspose).trace.re)
      ((∑ x, (A d1 x * (U 0 d1 x * rterm (U 0) d1 d2 x)).trace.re) + ∑ x, (A d2 x * (U 0 d2 x * rterm (U 0) d2 d1 x)).trace.re) 0 := by
  have hd := HasDerivAt.fun_sum (u := (Finset.univ : Finset (PSite L))) fun x _ =>
    (((h d1 x).mul (h d2 (x + unitStep d1))).mul ((h d2 x).mul (h d1 (x + unitStep d2))).star).trace
  refine hd.congr_deriv ?_
  generalize U 0 = V
  simp only [rterm, Matrix.add_mul, Matrix.mul_add, Matrix.trace_add, Complex.add_re, Matrix.conjTranspose_add, Finset.sum_add_distrib]
  have e1 : ∀ d1 d2 : Fin n, ∑ x, (A d1 x * (V d1 x * ((V d2 (x - Pi.single d2 1 + Pi.single d1 1))ᴴ * (V d1 (x - Pi.single d2 1))ᴴ * V d2 (x - Pi.single d2 1)))).trace.re =
      ∑ x, (A d1 (x + Pi.single d2 1) * (V d1 (x + Pi.single d2 1) * ((V d2 (x + Pi.single d1 1))ᴴ * (V d1 x)ᴴ * V d2 x))).trace.re := by
    intro d1 d2
    rw [← sum_shift (Pi.single d2 1)]
    simp only [add_sub_cancel_right]
  rw [e1 d1 d2, e1 d2 d1]
  unfold unitStep
  have s1 : ∀ x : PSite L, (A d1 x * V d1 x * V d2 (x + Pi.single d1 1) * (V d2 x * V d1 (x + Pi.single d2 1))ᴴ).trace.re =
      (A d1 x * (V d1 x * (V d2 (x + Pi.single d1 1) * (V d1 (x + Pi.single d2 1))ᴴ * (V d2 x)ᴴ))).trace.re := by
    intro x; simp only [Matrix.conjTranspose_mul, Matrix.mul_assoc]
  have s2 : ∀ x : PSite L, (V d1 x * (A d2 (x + Pi.single d1 1) * V d2 (x + Pi.single d1 1)) * (V d2 x * V d1 (x + Pi.single d2 1))ᴴ).trace.re =
      (A d2 (x + Pi.single d1 1) * (V d2 (x + Pi.single d1 1) * ((V d1 (x + Pi.single d2 1))ᴴ * (V d2 x)ᴴ * V d1 x))).trace.re := by
    intro x
    rw [Matrix.mul_assoc, Matrix.trace_mul_comm]; simp only [Matrix.conjTranspose_mul, Matrix.mul_assoc]
  have s3 : ∀ x : PSite L, (V d1 x * V d2 (x + Pi.single d1 1) * (A d2 x * V d2 x * V d1 (x + Pi.single d2 1))ᴴ).trace.re =
      (A d2 x * (V d2 x * (V d1 (x + Pi.single d2 1) * (V d2 (x + Pi.single d1 1))ᴴ * (V d1 x)ᴴ))).trace.re := by
    intro x
    rw [← trace_re_star]; simp only [Matrix.conjTranspose_mul, Matrix.conjTranspose_conjTranspose, Matrix.mul_assoc]
  have s4 : ∀ x : PSite L, (V d1 x * V d2 (x + Pi.single d1 1) * (V d2 x * (A d1 (x + Pi.single d2 1) * V d1 (x + Pi.single d2 1)))ᴴ).trace.re =
      (A d1 (x + Pi.single d2 1) * (V d1 (x + Pi.single d2 1) * ((V d2 (x + Pi.single d1 1))ᴴ * (V d1 x)ᴴ * V d2 x))).trace.re := by
    intro x
    rw [← trace_re_star, Matrix.conjTranspose_mul, Matrix.conjTranspose_conjTranspose, Matrix.mul_assoc, Matrix.trace_mul_comm]
    simp only [Matrix.conjTranspose_mul, Matrix.mul_assoc]
  rw [Finset.sum_congr rfl fun x _ => s1 x, Finset.sum_congr rfl fun x _ => s2 x, Finset.sum_congr rfl fun x _ => s3 x,
    Finset.sum_congr rfl fun x _ => s4 x]
  ring

/-- Sums over pairs of directions. -/
theorem sum_lt_pairs (G : Fin n → Fin n → ℝ) :
    (∑ d1, ∑ d2, if d1 < d2 then G d1 d2 + G d2 d1 else 0) = ∑ d1, ∑ d2 ∈ Finset.univ.erase d1, G d1 d2 := by
  have h1 : (∑ d1, ∑ d2, if d1 < d2 then G d1 d2 + G d2 d1 else 0) =
      (∑ d1, ∑ d2, if d1 < d2 then G d1 d2 else 0) + ∑ d1 : Fin n, ∑ d2, if d2 < d1 then G d1 d2 else 0 := by
    rw [Finset.sum_comm (f := fun d1 d2 => if d2 < d1 then G d1 d2 else 0), ← Finset.sum_add_distrib]
    refine Finset.sum_congr rfl fun d1 _ => ?_
    rw [← Finset.sum_add_distrib]
    refine Finset.sum_congr rfl fun d2 _ => ?_
    split_ifs <;> simp
  rw [h1, ← Finset.sum_add_distrib]
  refine Finset.sum_congr rfl fun d1 _ => ?_
  rw [← Finset.sum_add_distrib, ← Finset.add_sum_erase _ _ (Finset.mem_univ d1)]
  rw [if_neg (lt_irrefl _), add_zero, zero_add]
  refine Finset.sum_congr rfl fun d2 h2 => ?_
  rcases lt_trichotomy d1 d2 with h | h | h
  · rw [if_pos h, if_neg h.not_gt, add_zero]
  · exact absurd h.symm (Finset.ne_of_mem_erase h2)
  · rw [if_neg h.not_gt, if_pos h, zero_add]

theorem stapleSpec_star (U : GField L N) (d1 : Fin n) (x : PSite L) :
    (stapleSpec (fun _ _ => 1) U d1 x)ᴴ = ∑ d2 ∈ Finset.univ.erase d1, rterm U d1 d2 x := by
  unfold stapleSpec rterm
  rw [Matrix.conjTranspose_sum]
  refine Finset.sum_congr rfl fun d2 _ => ?_
  simp [Matrix.conjTranspose_add, Matrix.conjTranspose_mul, Matrix.mul_assoc]

/-- The derivative of the sum over all plaquettes. -/
theorem plaq_sum_deriv [∀ d, NeZero (L d)] {U : ℝ → GField L N} {A : GField L N} (h : LinkCurve U A) :
    HasDerivAt (fun t => ∑ d1, ∑ d2, if d1 < d2 then
      ∑ x, (U t d1 x * U t d2 (x + unitStep d1) * (U t d2 x * U t d1 (x + unitStep d2)).conjTranspose).trace.re else 0)
      (∑ d, ∑ x, (A d x * (U 0 d x * (stapleSpec (fun _ _ => 1) (U 0) d x)ᴴ)).trace.re) 0 := by
  have e : (∑ d, ∑ x, (A d x * (U 0 d x * (stapleSpec (fun _ _ => 1) (U 0) d x)ᴴ)).trace.re) =
      ∑ d1, ∑ d2 ∈ Finset.univ.erase d1, ∑ x, (A d1 x * (U 0 d1 x * rterm (U 0) d1 d2 x)).trace.re := by
    refine Finset.sum_congr rfl fun d1 _ => ?_
    rw [Finset.sum_comm]
    refine Finset.sum_congr rfl fun x _ => ?_
    rw [stapleSpec_star, Finset.mul_sum, Finset.mul_sum, Matrix.trace_sum, Complex.re_sum]
  rw [e, ← sum_lt_pairs fun d1 d2 => ∑ x, (A d1 x * (U 0 d1 x * rterm (U 0) d1 d2 x)).trace.re]
  refine HasDerivAt.fun_sum fun d1 _ => HasDerivAt.fun_sum fun d2 _ => ?_
  split_ifs
  · exact plaq_deriv h d1 d2
  · exact hasDerivAt_const _ _

/-- Product of the plaquette force with `a`. -/
theorem staple_pair [∀ d, NeZero (L d)] (hN : 0 < N) (U : GField L N) (a : AlgField L N) (eps : ℝ) :
    pairK a (fun d x => projectScaled (U d x * (stapleSpec (fun _ _ => 1) U d x)ᴴ) eps) =
      -(2 * eps * ∑ d, ∑ x, (algMat (a d x) * (U d x * (stapleSpec (fun _ _ => 1) U d x)ᴴ)).trace.re) := by
  unfold pairK
  rw [Finset.mul_sum, ← Finset.sum_neg_distrib]
  refine Finset.sum_congr rfl fun d _ => ?_
  rw [Finset.mul_sum, ← Finset.sum_neg_distrib]
  exact Finset.sum_congr rfl fun x _ => sum_coef hN _ _ _

theorem wplaq_deriv [∀ d, NeZero (L d)] (hN : 0 < N) {U : ℝ → GField L N} {A : GField L N} (h : LinkCurve U A) :
    HasDerivAt (fun t => measureSWplaq (U t))
      (-(∑ d, ∑ x, (A d x * (U 0 d x * (stapleSpec (fun _ _ => 1) (U 0) d x)ᴴ)).trace.re) / N) 0 := by
  have e : (fun t => measureSWplaq (U t)) = fun t => (∑ d1 : Fin n, ∑ d2, if d1 < d2 then ∑ _x : PSite L, (1 : ℝ) else 0) -
      (∑ d1, ∑ d2, if d1 < d2 then
      ∑ x, (U t d1 x * U t d2 (x + unitStep d1) * (U t d2 x * U t d1 (x + unitStep d2)).conjTranspose).trace.re else 0) / N := by
    funext t
    unfold measureSWplaq
    rw [Finset.sum_div, ← Finset.sum_sub_distrib]
    refine Finset.sum_congr rfl fun d1 _ => ?_
    rw [Finset.sum_div, ← Finset.sum_sub_distrib]
    refine Finset.sum_congr rfl fun d2 _ => ?_
    split_ifs
    · rw [Finset.sum_div, ← Finset.sum_sub_distrib]
    · simp
  rw [e]
  refine ((plaq_sum_deriv h).div_const (N : ℝ)).const_sub _ |>.congr_deriv ?_
  ring

/-- The force of the Wilson action is its gradient: along each curve of links `dU/dt = a U` the derivative of `eps S` is `-1/(2N)`
times the product of `a` with the force. -/
theorem C57_wplaq [∀ d, NeZero (L d)] (hN : 0 < N) (hn : 2 ≤ n) (U : ℝ → GField L N) (a : AlgField L N)
    (hU : LinkCurve U fun d x => expand (a d x)) (eps : ℝ) :
    ∃ F : AlgField L N, (∀ d x, forceWplaq (U 0) eps d x = some (F d x)) ∧
      HasDerivAt (fun t => eps * measureSWplaq (U t)) (-(pairK a F) / (2 * N)) 0 := by
  refine ⟨fun d x => projectScaled (U 0 d x * (stapleSpec (fun _ _ => 1) (U 0) d x)ᴴ) (-eps), fun d x => ?_, ?_⟩
  · unfold forceWplaq
    rw [(C33_reversed_staples hn (U 0) (fun _ => none) d x).1]; rfl
  · rw [staple_pair hN]
    simp only [expand_eq hN] at hU
    refine ((wplaq_deriv hN hU).const_mul eps).congr_deriv ?_
    field_simp

/-- The force is added to a given one. -/
theorem C57_wplaq_add [∀ d, NeZero (L d)] (hN : 0 < N) (hn : 2 ≤ n) (U : GField L N) (K : AlgField L N) (eps : ℝ) :
    ∃ F : AlgField L N, (∀ d x, forceWplaq U eps d x = some (F d x)) ∧ ∀ d x, forceWplaqAdd U K eps d x = some (K d x + F d x) := by
  refine ⟨fun d x => projectScaled (U d x * (stapleSpec (fun _ _ => 1) U d x)ᴴ) (-eps), fun d x => ?_, fun d x => ?_⟩
  · unfold forceWplaq
    rw [(C33_reversed_staples hn U (fun _ => none) d x).1]; rfl
  · unfold forceWplaqAdd
    rw [(C33_reversed_staples hn U (fun _ => none) d x).1]
    simp only [Option.map_some]
    congr 1
    have e : ∀ M : Mat N, projectScaled M (-eps) = -projectScaled M eps := by
      intro M
      rw [projectScaled_eq hN, projectScaled_eq hN]
      funext k
      simp only [Pi.neg_apply, neg_mul]
    rw [e, sub_eq_add_neg]

/-! ### The improved action -/

/-- A rectangle, two steps long in direction `d2`. -/
def rectPath (d1 d2 : Fin n) : List (PStep n) := [(d2, false), (d1, true), (d2, true), (d2, true), (d1, false), (d2, false)]

theorem disp_rect (d1 d2 : Fin n) : disp (rectPath d1 d2) = (0 : PSite L) := by
  simp only [rectPath, disp, stepVec, if_true, Bool.false_eq_true, if_false]
  abel

theorem pathM_rect (U : GField L N) (d1 d2 : Fin n) (x : PSite L) : pathM U (rectPath d1 d2) x =
    (U d2 (x - Pi.single d2 1))ᴴ * (U d1 (x - Pi.single d2 1) * (U d2 (x - Pi.single d2 1 + Pi.single d1 1) * (U d2 (x + Pi.single d1 1) *
      ((U d1 (x + Pi.single d2 1))ᴴ * (U d2 x)ᴴ)))) := by
  simp only [rectPath, pathM, linkM, stepVec, if_true, Bool.false_eq_true, if_false, Matrix.mul_one, ← sub_eq_add_neg]
  rw [show x - (Pi.single d2 1 : PSite L) + Pi.single d1 1 + Pi.single d2 1 = x + Pi.single d1 1 by abel]
  rw [show x + (Pi.single d1 1 : PSite L) + Pi.single d2 1 - Pi.single d1 1 = x + Pi.single d2 1 by abel]
  rw [show x + (Pi.single d2 1 : PSite L) - Pi.single d2 1 = x by abel]

theorem cancelU {U : GField L N} (h : IsUnitaryField U) (d : Fin n) (x : PSite L) (B : Mat N) : (U d x)ᴴ * (U d x * B) = B := by
  rw [← Matrix.mul_assoc, h.left, Matrix.one_mul]

/-- The loop of two plaquettes that share a link is the rectangle, long in the first direction. -/
theorem rect_first [∀ d, NeZero (L d)] {U : GField L N} (h : IsUnitaryField U) (d1 d2 : Fin n) :
    ∑ x, (U d1 x * (U d1 (x + unitStep d1) * U d2 (x + unitStep d1 + unitStep d1) *
        (U d2 (x + unitStep d1) * U d1 (x + unitStep d1 + unitStep d2)).conjTranspose) * (U d1 x).conjTranspose *
        (U d1 x * U d2 (x + unitStep d1) * (U d2 x * U d1 (x + unitStep d2)).conjTranspose)).trace.re =
      ∑ x, (pathM U (rectPath d2 d1) x).trace.re := by
  rw [← sum_shift (Pi.single d1 1) fun x => (pathM U (rectPath d2 d1) x).trace.re]
  refine Finset.sum_congr rfl fun x _ => ?_
  rw [pathM_rect, ← trace_re_star]
  simp only [add_sub_cancel_right, Matrix.conjTranspose_mul, Matrix.conjTranspose_conjTranspose, Matrix.mul_assoc, unitStep, cancelU h]
  conv_rhs => rw [Matrix.trace_mul_comm]
  simp only [Matrix.mul_assoc]

/-- The same, long in the second direction. -/
theorem rect_second [∀ d, NeZero (L d)] {U : GField L N} (h : IsUnitaryField U) (d1 d2 : Fin n) :
    ∑ x, (U d1 x * U d2 (x + unitStep d1) * (U d2 x * U d1 (x + unitStep d2)).conjTranspose * U d2 x *
        (U d1 (x + unitStep d2) * U d2 (x + unitStep d2 + unitStep d1) *
        (U d2 (x + unitStep d2) * U d1 (x + unitStep d2 + unitStep d2)).conjTranspose) * (U d2 x).conjTranspose).trace.re =
      ∑ x, (pathM U (rectPath d1 d2) x).trace.re := by
  rw [← sum_shift (Pi.single d2 1) fun x => (pathM U (rectPath d1 d2) x).trace.re]
  refine Finset.sum_congr rfl fun x _ => ?_
  rw [pathM_rect]
  simp only [add_sub_cancel_right, Matrix.conjTranspose_mul, Matrix.mul_assoc, unitStep, cancelU h]
  conv_rhs => rw [Matrix.trace_mul_comm]
  simp only [Matrix.mul_assoc]

theorem measureSImpr_eq [∀ d, NeZero (L d)] {U : GField L N} (h : IsUnitaryField U) (c11 c12 : ℝ) :
    measureSImpr U c11 c12 = c11 * measureSWplaq U +
      c12 * ((∑ d1 : Fin n, ∑ d2, if d1 < d2 then 2 * ∑ _x : PSite L, (1 : ℝ) else 0) -
        (∑ d1, ∑ d2 ∈ Finset.univ.erase d1, ∑ x, (pathM U (rectPath d1 d2) x).trace.re) / N) := by
  rw [← sum_lt_pairs fun d1 d2 => ∑ x, (pathM U (rectPath d1 d2) x).trace.re]
  unfold measureSImpr measureSWplaq
  rw [Finset.sum_div, ← Finset.sum_sub_distrib, Finset.mul_sum, Finset.mul_sum, ← Finset.sum_add_distrib]
  refine Finset.sum_congr rfl fun d1 _ => ?_
  rw [Finset.sum_div, ← Finset.sum_sub_distrib, Finset.mul_sum, Finset.mul_sum, ← Finset.sum_add_distrib]
  refine Finset.sum_congr rfl fun d2 _ => ?_
  split_ifs
  · rw [← rect_first h d1 d2, ← rect_second h d1 d2]
    simp only [Finset.sum_add_distrib, ← Finset.mul_sum, Finset.sum_sub_distrib, ← Finset.sum_div]
    ring
  · simp

theorem impr_deriv [∀ d, NeZero (L d)] (hN : 0 < N) {U : ℝ → GField L N} {A : GField L N} (h : LinkCurve U A)
    (hu : ∀ t, IsUnitaryField (U t)) (c11 c12 : ℝ) :
    HasDerivAt (fun t => measureSImpr (U t) c11 c12)
      (-(c11 * ∑ d, ∑ x, (A d x * (U 0 d x * (stapleSpec (fun _ _ => 1) (U 0) d x)ᴴ)).trace.re +
        c12 * ∑ d1, ∑ d2 ∈ Finset.univ.erase d1, ∑ x, (dpathM A (U 0) (rectPath d1 d2) x).trace.re) / N) 0 := by
  simp only [measureSImpr_eq (hu _)]
  have hr : HasDerivAt (fun t => ∑ d1, ∑ d2 ∈ Finset.univ.erase d1, ∑ x, (pathM (U t) (rectPath d1 d2) x).trace.re)
      (∑ d1, ∑ d2 ∈ Finset.univ.erase d1, ∑ x, (dpathM A (U 0) (rectPath d1 d2) x).trace.re) 0 :=
    HasDerivAt.fun_sum fun d1 _ => HasDerivAt.fun_sum fun d2 _ => path_sum_deriv h _
  refine (((wplaq_deriv hN h).const_mul c11).add (((hr.div_const (N : ℝ)).const_sub _).const_mul c12)).congr_deriv ?_
  ring

/-- The loop over the second direction. -/
theorem imprStep_run [∀ d, NeZero (L d)] (hN : 0 < N) {U : GField L N} (hU : IsUnitaryField U) (c12 : ℝ) (a : AlgField L N) (d1 : Fin n) :
    ∀ (l : List (Fin n)) (s : ImprState L N),
      pairK a (l.foldl (imprStep U c12 d1) s).K = pairK a s.K +
        (l.map fun d2 => 2 * c12 * ∑ x, (dpathM (fun d x => algMat (a d x)) U (rectPath d1 d2) x).trace.re).sum ∧
      (s.first = true → l ≠ [] → (l.foldl (imprStep U c12 d1) s).tstap = some fun x => (l.map fun d2 => rterm U d1 d2 x).sum) ∧
      (s.first = false → ∀ t, s.tstap = some t →
        (l.foldl (imprStep U c12 d1) s).tstap = some fun x => t x + (l.map fun d2 => rterm U d1 d2 x).sum) := by
  intro l
  induction l with
  | nil =>
    intro s
    refine ⟨by simp, fun _ h => absurd rfl h, fun _ t ht => ?_⟩
    simpa using ht
  | cons d2 l ih =>
    intro s
    obtain ⟨h1, h2, h3⟩ := ih (imprStep U c12 d1 s d2)
    have hW : ∀ x, ((((U d1 (x - unitStep d2) * U d2 (x - unitStep d2 + unitStep d1)).conjTranspose * U d2 (x - unitStep d2)).conjTranspose *
        (U d2 (x + unitStep d1) * (U d2 x * U d1 (x + unitStep d2)).conjTranspose)) : Mat N) = pathM U (rectPath d1 d2) x * 1 := by
      intro x
      rw [pathM_rect]
      simp only [Matrix.conjTranspose_mul, Matrix.conjTranspose_conjTranspose, Matrix.mul_assoc, unitStep, Matrix.mul_one]
    have hK : pairK a (imprStep U c12 d1 s d2).K = pairK a s.K +
        2 * c12 * ∑ x, (dpathM (fun d x => algMat (a d x)) U (rectPath d1 d2) x).trace.re := by
      by_cases h0 : c12 = 0
      · simp [imprStep, h0]
      · have := force_run hN hU c12 a (rectPath d1 d2) (fun _ => 1) _ s.K hW
        rw [pairK_sub] at this
        simp only [Matrix.mul_one] at this
        rw [← this]
        simp only [imprStep, if_pos h0, ne_eq, h0, not_false_eq_true]
        rw [add_sub_cancel]
        rfl
    have hT : ∀ x, rterm U d1 d2 x = U d2 (x + unitStep d1) * (U d2 x * U d1 (x + unitStep d2)).conjTranspose +
        (U d1 (x - unitStep d2) * U d2 (x - unitStep d2 + unitStep d1)).conjTranspose * U d2 (x - unitStep d2) := by
      intro x
      simp only [rterm, Matrix.conjTranspose_mul, Matrix.mul_assoc, unitStep]
    refine ⟨?_, fun hf _ => ?_, fun hf t ht => ?_⟩
    · rw [List.foldl_cons, h1, hK, List.map_cons, List.sum_cons, add_assoc]
    · rw [List.foldl_cons, h3 rfl (fun x => rterm U d1 d2 x) (by simp [imprStep, hf, hT])]
      simp
    · rw [List.foldl_cons, h3 rfl (fun x => t x + rterm U d1 d2 x) (by simp [imprStep, hf, hT, ht, add_assoc])]
      simp [add_assoc]

/-- The loop over the first direction. -/
theorem imprDir_run [∀ d, NeZero (L d)] (hN : 0 < N) (hn : 2 ≤ n) {U : GField L N} (hU : IsUnitaryField U) (c11 c12 : ℝ) (a : AlgField L N)
    (s : Option (PSite L → Mat N) × AlgField L N) (d1 : Fin n) : ∃ s', imprDir U c11 c12 s d1 = some s' ∧
      pairK a s'.2 = pairK a s.2 + (2 * c12 * ∑ d2 ∈ Finset.univ.erase d1, ∑ x, (dpathM (fun d x => algMat (a d x)) U (rectPath d1 d2) x).trace.re +
        2 * c11 * ∑ x, (algMat (a d1 x) * (U d1 x * (stapleSpec (fun _ _ => 1) U d1 x)ᴴ)).trace.re) := by
  have hne : (List.finRange n).filter (· ≠ d1) ≠ [] := by
    intro h
    rw [List.filter_eq_nil_iff] at h
    have : ∃ d : Fin n, d ≠ d1 := by
      have : Nontrivial (Fin n) := Fin.nontrivial_iff_two_le.2 hn
      exact exists_ne d1
    obtain ⟨d, hd⟩ := this
    exact h d (List.mem_finRange d) (by simpa using hd)
  obtain ⟨h1, h2, -⟩ := imprStep_run hN hU c12 a d1 ((List.finRange n).filter (· ≠ d1)) ⟨true, s.1, s.2⟩
  have h2 := h2 rfl hne
  unfold imprDir
  dsimp only
  generalize hr : ((List.finRange n).filter (· ≠ d1)).foldl (imprStep U c12 d1) ⟨true, s.1, s.2⟩ = r at h1 h2 ⊢
  rw [h2]
  refine ⟨_, rfl, ?_⟩
  dsimp only at h1 ⊢
  have e : (fun d x => if d = d1 then r.K d x - projectScaled (U d1 x * ((((List.finRange n).filter (· ≠ d1)).map fun d2 => rterm U d1 d2 x).sum)) c11
      else r.K d x) = r.K - fun d x => if d = d1 then projectScaled (U d1 x * (stapleSpec (fun _ _ => 1) U d1 x)ᴴ) c11 else 0 := by
    funext d x
    simp only [Pi.sub_apply]
    rw [sum_erase_finRange, ← stapleSpec_star]
    split_ifs
    · rfl
    · rw [sub_zero]
  rw [e, pairK_sub, h1, sum_erase_finRange, ← Finset.mul_sum]
  have e2 : pairK a (fun d x => if d = d1 then projectScaled (U d1 x * (stapleSpec (fun _ _ => 1) U d1 x)ᴴ) c11 else 0) =
      -(2 * c11 * ∑ x, (algMat (a d1 x) * (U d1 x * (stapleSpec (fun _ _ => 1) U d1 x)ᴴ)).trace.re) := by
    unfold pairK
    rw [Finset.sum_eq_single d1]
    · simp only [if_true]
      rw [Finset.mul_sum, ← Finset.sum_neg_distrib]
      exact Finset.sum_congr rfl fun x _ => sum_coef hN _ _ _
    · intro d _ hd
      refine Finset.sum_eq_zero fun x _ => Finset.sum_eq_zero fun k _ => ?_
      dsimp only
      rw [if_neg hd, Pi.zero_apply, mul_zero]
    · intro h; exact absurd (Finset.mem_univ _) h
  rw [e2]
  ring

theorem imprFold_run [∀ d, NeZero (L d)] (hN : 0 < N) (hn : 2 ≤ n) {U : GField L N} (hU : IsUnitaryField U) (c11 c12 : ℝ) (a : AlgField L N) :
    ∀ (l : List (Fin n)) (s : Option (PSite L → Mat N) × AlgField L N), ∃ s', l.foldlM (imprDir U c11 c12) s = some s' ∧
      pairK a s'.2 = pairK a s.2 + (l.map fun d1 =>
        (2 * c12 * ∑ d2 ∈ Finset.univ.erase d1, ∑ x, (dpathM (fun d x => algMat (a d x)) U (rectPath d1 d2) x).trace.re +
        2 * c11 * ∑ x, (algMat (a d1 x) * (U d1 x * (stapleSpec (fun _ _ => 1) U d1 x)ᴴ)).trace.re)).sum := by
  intro l
  induction l with
  | nil => intro s; exact ⟨s, rfl, by simp⟩
  | cons d l ih =>
    intro s
    obtain ⟨s1, e1, p1⟩ := imprDir_run hN hn hU c11 c12 a s d
    obtain ⟨s2, e2, p2⟩ := ih s1
    refine ⟨s2, ?_, ?_⟩
    · rw [List.foldlM_cons, e1]; exact e2
    · rw [p2, p1, List.map_cons, List.sum_cons, add_assoc]

/-- The force of the improved action is its gradient. -/
theorem C57_impr [∀ d, NeZero (L d)] (hN : 0 < N) (hn : 2 ≤ n) (U : ℝ → GField L N) (a : AlgField L N)
    (hU : LinkCurve U fun d x => expand (a d x)) (hu : ∀ t, IsUnitaryField (U t)) (c11 c12 : ℝ) (K : AlgField L N) :
    ∃ F K' : AlgField L N, forceImpr (U 0) c11 c12 = some F ∧ forceImprAdd (U 0) K c11 c12 = some K' ∧
      HasDerivAt (fun t => measureSImpr (U t) c11 c12) (-(pairK a F) / (2 * N)) 0 ∧ pairK a K' = pairK a K + pairK a F := by
  obtain ⟨s1, e1, p1⟩ := imprFold_run hN hn (hu 0) c11 c12 a (List.finRange n) (none, fun _ _ => 0)
  obtain ⟨s2, e2, p2⟩ := imprFold_run hN hn (hu 0) c11 c12 a (List.finRange n) (none, K)
  refine ⟨s1.2, s2.2, by unfold forceImpr forceImprAdd; rw [e1]; rfl, by unfold forceImprAdd; rw [e2]; rfl, ?_, ?_⟩
  · simp only [expand_eq hN] at hU
    refine (impr_deriv hN hU hu c11 c12).congr_deriv ?_
    rw [p1, ← List.ofFn_eq_map, List.sum_ofFn, Finset.sum_add_distrib, ← Finset.mul_sum, ← Finset.mul_sum]
    have z : pairK a (fun _ _ => (0 : Alg N)) = 0 := by simp [pairK]
    dsimp only
    rw [z]
    field_simp
    ring
  · rw [p1, p2]
    have z : pairK a (fun _ _ => (0 : Alg N)) = 0 := by simp [pairK]
    dsimp only
    rw [z, zero_add]

/-! ### Uniqueness and examples -/

/-- Exponentials of elements of the algebra are unitary. -/
theorem exp_field_unitary {U : GField L N} (hU : IsUnitaryField U) (a : AlgField L N) (t : ℝ) :
    IsUnitaryField (fun d x => NormedSpace.exp (t • algMat (a d x)) * U d x) := by
  intro d x
  refine mul_mem ?_ (hU d x)
  rw [Matrix.mem_unitaryGroup_iff, Matrix.star_eq_conjTranspose, ← Matrix.exp_conjTranspose, Matrix.conjTranspose_smul, algMat_conj,
    smul_neg, star_trivial, ← Matrix.exp_add_of_commute _ _ (show _ * _ = _ * _ by rw [Matrix.mul_neg, Matrix.neg_mul]), add_neg_cancel, NormedSpace.exp_zero]

theorem pairK_ext [∀ d, NeZero (L d)] {F F' : AlgField L N} (h : ∀ a, pairK a F = pairK a F') : F = F' := by
  funext d x k
  have := h fun d' x' k' => if d' = d ∧ x' = x ∧ k' = k then 1 else 0
  have e : ∀ F : AlgField L N, pairK (fun d' x' k' => if d' = d ∧ x' = x ∧ k' = k then 1 else 0) F = F d x k := by
    intro F
    unfold pairK
    rw [Finset.sum_eq_single d, Finset.sum_eq_single x, Finset.sum_eq_single k]
    · simp
    · intro b _ hb; simp [hb]
    · intro h; exact absurd (Finset.mem_univ _) h
    · intro b _ hb; simp [hb]
    · intro h; exact absurd (Finset.mem_univ _) h
    · intro b _ hb; simp [hb]
    · intro h; exact absurd (Finset.mem_univ _) h
  rwa [e, e] at this

/-- There is only one field that gives the derivative of the Wilson action along all curves, so it is the result of the code. -/
theorem C57_wplaq_unique [∀ d, NeZero (L d)] (hN : 0 < N) (hn : 2 ≤ n) (V : GField L N) (eps : ℝ) (F : AlgField L N)
    (hF : ∀ (U : ℝ → GField L N) (a : AlgField L N), U 0 = V → LinkCurve U (fun d x => expand (a d x)) →
      HasDerivAt (fun t => eps * measureSWplaq (U t)) (-(pairK a F) / (2 * N)) 0) :
    ∀ d x, forceWplaq V eps d x = some (F d x) := by
  obtain ⟨F0, hF0, -⟩ := C57_wplaq_add hN hn V (fun _ _ => 0) eps
  have h0 : F0 = F := by
    refine pairK_ext fun a => ?_
    have hc := exp_curve V fun d x => expand (a d x)
    have hz : (fun (t : ℝ) (d : Fin n) (x : PSite L) => NormedSpace.exp (t • expand (a d x)) * V d x) 0 = V := by
      funext d x; simp
    obtain ⟨F1, g1, g2⟩ := C57_wplaq hN hn _ a hc eps
    have := g2.unique (hF _ a hz hc)
    have e : F1 = F0 := by
      funext d x
      have := g1 d x
      dsimp only at this hz
      rw [hz, hF0 d x] at this
      exact (Option.some_inj.1 this).symm
    rw [e] at this
    have hn0 : (2 * N : ℝ) ≠ 0 := by positivity
    field_simp at this
    linarith
  rw [← h0]
  exact hF0

/-- A lattice of size 3 x 4 and SU(2): all hypotheses hold for a curve through the field with all links one, in any direction. -/
example (a : AlgField (![3, 4] : Fin 2 → ℕ) 2) : ∃ U : ℝ → GField (![3, 4] : Fin 2 → ℕ) 2,
    LinkCurve U (fun d x => expand (a d x)) ∧ ∀ t, IsUnitaryField (U t) := by
  refine ⟨_, exp_curve (fun _ _ => 1) fun d x => expand (a d x), fun t => ?_⟩
  have := exp_field_unitary (U := fun _ _ => (1 : Mat 2)) (fun _ _ => one_mem _) a t
  simpa only [expand_eq (by norm_num : 0 < 2)] using this

/-- Paths: the line to the site two steps away, and a closed rectangle. -/
example (U : GField (![3, 4] : Fin 2 → ℕ) 2) (x : PSite (![3, 4] : Fin 2 → ℕ)) :
    pathM U [(0, true), (1, false)] x = U 0 x * (U 1 (x + Pi.single 0 1 - Pi.single 1 1))ᴴ ∧
    disp (rectPath 0 1) = (0 : PSite (![3, 4] : Fin 2 → ℕ)) := by
  refine ⟨?_, disp_rect 0 1⟩
  simp [pathM, linkM, stepVec]

end Hila
