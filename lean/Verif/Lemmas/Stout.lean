import Verif.Model.Stout
import Verif.Lemmas.GradFlow

/-!
# Staples of stout smearing and their derivatives
-/

set_option linter.unusedSectionVars false

namespace Hila

open Matrix

variable {n : ℕ} {L : Fin n → ℕ} {N : ℕ}

theorem foldl_add_list {M α : Type} [AddCommMonoid M] (f : M → α → M) (g : α → M) (h : ∀ s p, f s p = s + g p) :
    ∀ (l : List α) (s : M), l.foldl f s = s + (l.map g).sum
  | [], s => by simp
  | p :: l, s => by
    rw [List.foldl_cons, foldl_add_list f g h l, h, List.map_cons, List.sum_cons, add_assoc]

theorem list_sum_filter {M α : Type} [AddCommMonoid M] (p : α → Prop) [DecidablePred p] (g : α → M) :
    ∀ l : List α, ((l.filter p).map g).sum = (l.map fun a => if p a then g a else 0).sum
  | [] => by simp
  | a :: l => by
    by_cases h : p a
    · rw [List.filter_cons_of_pos (by simpa using h), List.map_cons, List.sum_cons, list_sum_filter p g l, List.map_cons, List.sum_cons, if_pos h]
    · rw [List.filter_cons_of_neg (by simpa using h), list_sum_filter p g l, List.map_cons, List.sum_cons, if_neg h, zero_add]

theorem dirPairs_sum {M : Type} [AddCommMonoid M] (g : Fin n × Fin n → M) :
    ((dirPairs n).map g).sum = ∑ d1, ∑ d2, if d2 ≠ d1 then g (d1, d2) else 0 := by
  unfold dirPairs
  have hf : ∀ l : List (Fin n), ((l.flatMap fun d1 => ((List.finRange n).filter (· ≠ d1)).map fun d2 => (d1, d2)).map g).sum =
      (l.map fun d1 => ∑ d2, if d2 ≠ d1 then g (d1, d2) else 0).sum := by
    intro l
    induction l with
    | nil => simp
    | cons d1 l ih =>
      rw [List.flatMap_cons, List.map_append, List.sum_append, ih, List.map_cons, List.sum_cons, List.map_map, list_sum_filter, Fin.sum_univ_def]
      rfl
  rw [hf, Fin.sum_univ_def]

/-- The staple of the link in direction `d` on the side of `+e`: the way from `x + d` to `x`. -/
def upStaple (U : GField L N) (d e : Fin n) (x : PSite L) : Mat N := pathM U [(e, true), (d, false), (e, false)] (x + Pi.single d 1)

/-- The staple on the side of `-e`. -/
def dnStaple (U : GField L N) (d e : Fin n) (x : PSite L) : Mat N := pathM U [(e, false), (d, false), (e, true)] (x + Pi.single d 1)

/-- The sum of the staples of a link. -/
def stapleSum (U : GField L N) : GField L N := fun d x => ∑ e, if e ≠ d then upStaple U d e x + dnStaple U d e x else 0

theorem upStaple_eq (U : GField L N) (d e : Fin n) (x : PSite L) :
    upStaple U d e x = U e (x + unitStep d) * ((U d (x + unitStep e))ᴴ * (U e x)ᴴ) := by
  simp only [upStaple, pathM, linkM, stepVec, if_true, Bool.false_eq_true, if_false, Matrix.mul_one, unitStep]
  rw [show x + (Pi.single d 1 : PSite L) + Pi.single e 1 - Pi.single d 1 = x + Pi.single e 1 by abel,
    show x + (Pi.single d 1 : PSite L) + Pi.single e 1 + -Pi.single d 1 - Pi.single e 1 = x by abel]

theorem dnStaple_eq (U : GField L N) (d e : Fin n) (x : PSite L) :
    dnStaple U d e x = (U e (x - unitStep e + unitStep d))ᴴ * ((U d (x - unitStep e))ᴴ * U e (x - unitStep e)) := by
  simp only [dnStaple, pathM, linkM, stepVec, if_true, Bool.false_eq_true, if_false, Matrix.mul_one, unitStep]
  rw [show x + (Pi.single d 1 : PSite L) - Pi.single e 1 = x - Pi.single e 1 + Pi.single d 1 by abel,
    show x + (Pi.single d 1 : PSite L) + -Pi.single e 1 - Pi.single d 1 = x - Pi.single e 1 by abel,
    show x + (Pi.single d 1 : PSite L) + -Pi.single e 1 + -Pi.single d 1 = x - Pi.single e 1 by abel]

/-- What one pair of directions adds. -/
def stapleAdd (U : GField L N) (p : Fin n × Fin n) : GField L N := fun d x =>
  (if d = p.2 then upStaple U p.2 p.1 x else 0) + if d = p.1 then dnStaple U p.1 p.2 x else 0

theorem staplesumsStep_eq (U S : GField L N) (p : Fin n × Fin n) : staplesumsStep U S p = S + stapleAdd U p := by
  funext d x
  show (if d = p.1 then (if d = p.2 then _ else _) + _ else (if d = p.2 then _ else _)) = S d x + ((if d = p.2 then _ else _) + if d = p.1 then _ else _)
  rw [upStaple_eq, dnStaple_eq]
  dsimp only
  by_cases h1 : d = p.1
  · rw [if_pos h1, if_pos h1]
    by_cases h2 : d = p.2
    · rw [if_pos h2, if_pos h2, Matrix.conjTranspose_mul, Matrix.conjTranspose_mul, Matrix.mul_assoc, add_assoc]
    · rw [if_neg h2, if_neg h2, Matrix.conjTranspose_mul, Matrix.mul_assoc, zero_add]
  · rw [if_neg h1, if_neg h1]
    by_cases h2 : d = p.2
    · rw [if_pos h2, if_pos h2, Matrix.conjTranspose_mul, add_zero]
    · rw [if_neg h2, if_neg h2, add_zero, add_zero]

theorem staplesums_eq (U : GField L N) : staplesums U = stapleSum U := by
  unfold staplesums
  rw [foldl_add_list _ _ (staplesumsStep_eq U), dirPairs_sum]
  funext d x
  show (0 : Mat N) + _ = _
  rw [zero_add, Finset.sum_apply, Finset.sum_apply]
  simp only [Finset.sum_apply]
  have h : ∀ d1 d2 : Fin n, (if d2 ≠ d1 then stapleAdd U (d1, d2) else 0 : GField L N) d x =
      (if d = d2 then (if d1 ≠ d then upStaple U d d1 x else 0) else 0) + if d = d1 then (if d2 ≠ d then dnStaple U d d2 x else 0) else 0 := by
    intro d1 d2
    by_cases h : d2 = d1
    · subst h
      rw [if_neg (by simp)]
      by_cases h2 : d = d2
      · subst h2
        simp
      · simp [h2]
    · rw [if_pos h]
      unfold stapleAdd
      by_cases h1 : d = d1
      · subst h1
        have : d ≠ d2 := fun h' => h h'.symm
        simp [this, h]
      · by_cases h2 : d = d2
        · subst h2
          have : d1 ≠ d := fun h' => h1 h'.symm
          simp [this, h1]
        · simp [h1, h2]
  rw [Finset.sum_congr rfl fun d1 _ => Finset.sum_congr rfl fun d2 _ => h d1 d2]
  simp only [Finset.sum_add_distrib, Finset.sum_ite_eq, Finset.mem_univ, if_true]
  rw [show (∑ d1 : Fin n, ∑ d2 : Fin n, if d = d1 then (if d2 ≠ d then dnStaple U d d2 x else 0) else 0) =
      ∑ d2 : Fin n, if d2 ≠ d then dnStaple U d d2 x else 0 by rw [Finset.sum_comm]; simp]
  rw [← Finset.sum_add_distrib]
  unfold stapleSum
  refine Finset.sum_congr rfl fun e _ => ?_
  split_ifs <;> simp

/-! ### The force of the staples -/

theorem sum_coef_project (hN : 0 < N) (a : Alg N) (F : Mat N) : ∑ k, a k * project F k = -(2 * (algMat a * F).trace.re) := by
  have h := sum_coef hN a F 1
  rw [projectScaled_eq hN] at h
  rw [project_eq hN]
  simpa using h

theorem pairK_delta [∀ d, NeZero (L d)] (a : AlgField L N) (d : Fin n) (F : PSite L → Alg N) :
    pairK a (fun d' x => if d' = d then F x else 0) = ∑ x, ∑ k, a d x k * F x k := by
  unfold pairK
  rw [Finset.sum_eq_single d]
  · simp
  · intro b _ hb
    refine Finset.sum_eq_zero fun x _ => Finset.sum_eq_zero fun k _ => ?_
    dsimp only
    rw [if_neg hb, Pi.zero_apply, mul_zero]
  · intro h; exact absurd (Finset.mem_univ _) h

/-- What one pair of directions adds to the force. -/
noncomputable def stapleForceAdd (U K1 : GField L N) (p : Fin n × Fin n) : AlgField L N :=
  (stoutStapleForce U K1 0 p)

theorem nested_if {M : Type} [AddCommGroup M] (p q : Prop) [Decidable p] [Decidable q] (s u v : M) :
    (if p then (if q then s - u else s) - v else if q then s - u else s) = s + ((if q then -u else 0) + if p then -v else 0) := by
  split_ifs <;> abel

theorem stoutStapleForce_eq (U K1 : GField L N) (KS : AlgField L N) (p : Fin n × Fin n) :
    stoutStapleForce U K1 KS p = KS + stapleForceAdd U K1 p := by
  funext d x
  unfold stapleForceAdd stoutStapleForce
  dsimp only
  show _ = KS d x + _
  rw [nested_if]
  exact congrArg (KS d x + ·) ((nested_if _ _ _ _ _).trans (zero_add _)).symm

/-- The derivative of the two staples of one pair of directions. -/
def dStaples (A U : GField L N) (d e : Fin n) (x : PSite L) : Mat N :=
  dpathM A U [(e, true), (d, false), (e, false)] (x + Pi.single d 1) + dpathM A U [(e, false), (d, false), (e, true)] (x + Pi.single d 1)

theorem dUp_eq (A U : GField L N) (d e : Fin n) (x : PSite L) :
    dpathM A U [(e, true), (d, false), (e, false)] (x + Pi.single d 1) =
      A e (x + unitStep d) * U e (x + unitStep d) * ((U d (x + unitStep e))ᴴ * (U e x)ᴴ) +
      U e (x + unitStep d) * ((A d (x + unitStep e) * U d (x + unitStep e))ᴴ * (U e x)ᴴ + (U d (x + unitStep e))ᴴ * (A e x * U e x)ᴴ) := by
  simp only [dpathM, dlinkM, pathM, linkM, stepVec, if_true, Bool.false_eq_true, if_false, Matrix.mul_one, Matrix.mul_zero, add_zero, unitStep]
  rw [show x + (Pi.single d 1 : PSite L) + Pi.single e 1 - Pi.single d 1 = x + Pi.single e 1 by abel,
    show x + (Pi.single d 1 : PSite L) + Pi.single e 1 + -Pi.single d 1 - Pi.single e 1 = x by abel]

theorem dDn_eq (A U : GField L N) (d e : Fin n) (x : PSite L) :
    dpathM A U [(e, false), (d, false), (e, true)] (x + unitStep e + Pi.single d 1) =
      (A e (x + unitStep d) * U e (x + unitStep d))ᴴ * ((U d x)ᴴ * U e x) +
      (U e (x + unitStep d))ᴴ * ((A d x * U d x)ᴴ * U e x + (U d x)ᴴ * (A e x * U e x)) := by
  simp only [dpathM, dlinkM, pathM, linkM, stepVec, if_true, Bool.false_eq_true, if_false, Matrix.mul_one, Matrix.mul_zero, add_zero, unitStep]
  rw [show x + (Pi.single e 1 : PSite L) + Pi.single d 1 - Pi.single e 1 = x + Pi.single d 1 by abel,
    show x + (Pi.single e 1 : PSite L) + Pi.single d 1 + -Pi.single e 1 - Pi.single d 1 = x by abel,
    show x + (Pi.single e 1 : PSite L) + Pi.single d 1 + -Pi.single e 1 + -Pi.single d 1 = x by abel]

theorem trace_conj_re (M : Mat N) : (Mᴴ).trace.re = M.trace.re := by
  rw [Matrix.trace_conjTranspose]; simp

/-- The traces that belong to one plaquette. `A1`, `A2`, `A3`, `A4` are the changes of the links, `K` and `K'` the matrices
`K1` of the two parallel links. -/
theorem plaq_traces (A1 A2 A3 A4 U1 U2 U3 U4 K K' : Mat N) (h1 : A1ᴴ = -A1) (h2 : A2ᴴ = -A2) (h3 : A3ᴴ = -A3) (h4 : A4ᴴ = -A4) :
    (A2 * (U2 * U3ᴴ * U4ᴴ * K + U2 * K'ᴴ * U4ᴴ * U1)).trace.re - (A4 * (K * (U2 * U3ᴴ * U4ᴴ) + U1 * (U2 * K'ᴴ * U4ᴴ))).trace.re +
      ((A1 * (U1 * (U2 * K'ᴴ * U4ᴴ))).trace.re - (A3 * (U4ᴴ * K * (U2 * U3ᴴ))).trace.re) =
    ((A2 * U2 * (U3ᴴ * U4ᴴ) + U2 * ((A3 * U3)ᴴ * U4ᴴ + U3ᴴ * (A4 * U4)ᴴ)) * K).trace.re +
      (((A2 * U2)ᴴ * (U1ᴴ * U4) + U2ᴴ * ((A1 * U1)ᴴ * U4 + U1ᴴ * (A4 * U4))) * K').trace.re := by
  have e1 : (A2 * (U2 * U3ᴴ * U4ᴴ * K)).trace = (A2 * U2 * (U3ᴴ * U4ᴴ) * K).trace := by simp only [Matrix.mul_assoc]
  have e2 : (A2 * (U2 * K'ᴴ * U4ᴴ * U1)).trace.re = ((A2 * U2)ᴴ * (U1ᴴ * U4) * K').trace.re := by
    rw [← trace_conj_re ((A2 * U2)ᴴ * (U1ᴴ * U4) * K')]
    have t := Matrix.trace_mul_comm (A2 * U2) (K'ᴴ * U4ᴴ * U1)
    simp only [Matrix.conjTranspose_mul, Matrix.conjTranspose_conjTranspose, Matrix.mul_assoc] at t ⊢
    rw [t]
  have e3 : (A4 * (K * (U2 * U3ᴴ * U4ᴴ))).trace = -(U2 * (U3ᴴ * (A4 * U4)ᴴ) * K).trace := by
    have t := Matrix.trace_mul_comm (A4 * K) (U2 * U3ᴴ * U4ᴴ)
    simp only [Matrix.conjTranspose_mul, h4, Matrix.mul_neg, Matrix.neg_mul, Matrix.trace_neg, neg_neg, Matrix.mul_assoc] at t ⊢
    rw [t]
  have e4 : (A4 * (U1 * (U2 * K'ᴴ * U4ᴴ))).trace.re = -(U2ᴴ * (U1ᴴ * (A4 * U4)) * K').trace.re := by
    rw [← trace_conj_re (U2ᴴ * (U1ᴴ * (A4 * U4)) * K')]
    have t := Matrix.trace_mul_comm (A4 * U1 * U2) (K'ᴴ * U4ᴴ)
    simp only [Matrix.conjTranspose_mul, Matrix.conjTranspose_conjTranspose, h4, Matrix.mul_neg, Matrix.neg_mul, Matrix.trace_neg, Complex.neg_re,
      neg_neg, Matrix.mul_assoc] at t ⊢
    rw [t]
  have e5 : (A1 * (U1 * (U2 * K'ᴴ * U4ᴴ))).trace.re = (U2ᴴ * ((A1 * U1)ᴴ * U4) * K').trace.re := by
    rw [← trace_conj_re (U2ᴴ * ((A1 * U1)ᴴ * U4) * K')]
    have t := Matrix.trace_mul_comm (A1 * U1 * U2) (K'ᴴ * U4ᴴ)
    simp only [Matrix.conjTranspose_mul, Matrix.conjTranspose_conjTranspose, Matrix.mul_assoc] at t ⊢
    rw [t]
  have e6 : (A3 * (U4ᴴ * K * (U2 * U3ᴴ))).trace = -(U2 * ((A3 * U3)ᴴ * U4ᴴ) * K).trace := by
    have t := Matrix.trace_mul_comm (A3 * U4ᴴ * K) (U2 * U3ᴴ)
    simp only [Matrix.conjTranspose_mul, h3, Matrix.mul_neg, Matrix.neg_mul, Matrix.trace_neg, neg_neg, Matrix.mul_assoc] at t ⊢
    rw [t]
  simp only [Matrix.mul_add, Matrix.add_mul, Matrix.trace_add, Complex.add_re]
  rw [e1, e2, e3, e4, e5, e6, Complex.neg_re, Complex.neg_re]
  ring

theorem stapleForceAdd_pair [∀ d, NeZero (L d)] (hN : 0 < N) (a : AlgField L N) (U K1 : GField L N) (d e : Fin n) :
    pairK a (stapleForceAdd U K1 (d, e)) = 2 * ∑ x, (dStaples (fun d x => algMat (a d x)) U d e x * K1 d x).trace.re := by
  have hsplit : stapleForceAdd U K1 (d, e) =
      (fun d' x => if d' = e then -project ((U e (x - unitStep d + unitStep d) * (U d (x - unitStep d + unitStep e))ᴴ * (U e (x - unitStep d))ᴴ * K1 d (x - unitStep d) +
        U e (x - unitStep d + unitStep d) * (K1 d (x - unitStep d + unitStep e))ᴴ * (U e (x - unitStep d))ᴴ * U d (x - unitStep d)) -
        (K1 d x * (U e (x + unitStep d) * (U d (x + unitStep e))ᴴ * (U e x)ᴴ) + U d x * (U e (x + unitStep d) * (K1 d (x + unitStep e))ᴴ * (U e x)ᴴ))) else 0) +
      fun d' x => if d' = d then -project (U d x * (U e (x + unitStep d) * (K1 d (x + unitStep e))ᴴ * (U e x)ᴴ) -
        (U e (x - unitStep e))ᴴ * K1 d (x - unitStep e) * (U e (x - unitStep e + unitStep d) * (U d (x - unitStep e + unitStep e))ᴴ)) else 0 := by
    funext d' x
    unfold stapleForceAdd stoutStapleForce
    dsimp only
    rw [nested_if]
    exact zero_add _
  rw [hsplit, pairK_add, pairK_delta, pairK_delta]
  simp only [Pi.neg_apply, mul_neg, Finset.sum_neg_distrib, sum_coef_project hN, neg_neg]
  simp only [Matrix.mul_sub, Matrix.trace_sub, Complex.sub_re, mul_sub, Finset.sum_sub_distrib]
  rw [← sum_shift (unitStep d) (fun x => 2 * (algMat (a e x) * (U e (x - unitStep d + unitStep d) * (U d (x - unitStep d + unitStep e))ᴴ * (U e (x - unitStep d))ᴴ * K1 d (x - unitStep d) +
        U e (x - unitStep d + unitStep d) * (K1 d (x - unitStep d + unitStep e))ᴴ * (U e (x - unitStep d))ᴴ * U d (x - unitStep d))).trace.re),
    ← sum_shift (unitStep e) (fun x => 2 * (algMat (a d x) * ((U e (x - unitStep e))ᴴ * K1 d (x - unitStep e) * (U e (x - unitStep e + unitStep d) * (U d (x - unitStep e + unitStep e))ᴴ))).trace.re)]
  simp only [add_sub_cancel_right]
  have key : ∑ x, (dStaples (fun d x => algMat (a d x)) U d e x * K1 d x).trace.re =
      ∑ x, ((dpathM (fun d x => algMat (a d x)) U [(e, true), (d, false), (e, false)] (x + Pi.single d 1) * K1 d x).trace.re +
        (dpathM (fun d x => algMat (a d x)) U [(e, false), (d, false), (e, true)] (x + unitStep e + Pi.single d 1) * K1 d (x + unitStep e)).trace.re) := by
    unfold dStaples
    simp only [Matrix.add_mul, Matrix.trace_add, Complex.add_re]
    rw [Finset.sum_add_distrib, Finset.sum_add_distrib]
    exact congrArg _ (sum_shift (unitStep e) _).symm
  rw [key]
  simp only [← Finset.mul_sum, ← mul_add, ← mul_sub, ← Finset.sum_add_distrib, ← Finset.sum_sub_distrib]
  congr 1
  refine Finset.sum_congr rfl fun x _ => ?_
  rw [dUp_eq, dDn_eq]
  exact plaq_traces (algMat (a d x)) (algMat (a e (x + unitStep d))) (algMat (a d (x + unitStep e))) (algMat (a e x))
    (U d x) (U e (x + unitStep d)) (U d (x + unitStep e)) (U e x) (K1 d x) (K1 d (x + unitStep e))
    (algMat_conj _) (algMat_conj _) (algMat_conj _) (algMat_conj _)

/-- The derivative of the sum of staples. -/
def dStapleSum (A U : GField L N) : GField L N := fun d x => ∑ e, if e ≠ d then dStaples A U d e x else 0

theorem MDeriv.sum {ι : Type} [Fintype ι] {f : ι → ℝ → Mat N} {f' : ι → Mat N} (h : ∀ i, MDeriv (f i) (f' i)) :
    MDeriv (fun t => ∑ i, f i t) (∑ i, f' i) := by
  intro i j
  have := HasDerivAt.fun_sum (u := (Finset.univ : Finset ι)) fun k _ => h k i j
  simpa only [Matrix.sum_apply] using this

theorem stapleSum_deriv {U : ℝ → GField L N} {A : GField L N} (h : LinkCurve U A) (d : Fin n) (x : PSite L) :
    MDeriv (fun t => stapleSum (U t) d x) (dStapleSum A (U 0) d x) := by
  unfold stapleSum dStapleSum
  refine MDeriv.sum fun e => ?_
  split_ifs
  · exact (h.path _ _).add (h.path _ _)
  · exact MDeriv.const 0

/-- All pairs of directions together. -/
theorem stapleForce_run [∀ d, NeZero (L d)] (hN : 0 < N) (a : AlgField L N) (U K1 : GField L N) (KS : AlgField L N) :
    pairK a ((dirPairs n).foldl (stoutStapleForce U K1) KS) =
      pairK a KS + 2 * ∑ d, ∑ x, (dStapleSum (fun d x => algMat (a d x)) U d x * K1 d x).trace.re := by
  rw [foldl_add_list _ _ (stoutStapleForce_eq U K1), pairK_add]
  congr 1
  have hl : ∀ l : List (Fin n × Fin n), pairK a (l.map (stapleForceAdd U K1)).sum = (l.map fun p => pairK a (stapleForceAdd U K1 p)).sum := by
    intro l
    induction l with
    | nil => simp [pairK]
    | cons p l ih => rw [List.map_cons, List.sum_cons, pairK_add, ih, List.map_cons, List.sum_cons]
  rw [hl, dirPairs_sum, Finset.mul_sum]
  refine Finset.sum_congr rfl fun d _ => ?_
  simp only [stapleForceAdd_pair hN]
  unfold dStapleSum
  simp only [Finset.sum_mul, Matrix.trace_sum, Complex.re_sum, Finset.mul_sum]
  rw [Finset.sum_comm]
  refine Finset.sum_congr rfl fun e _ => ?_
  by_cases he : e ≠ d
  · simp [he]
  · simp [he]

end Hila
