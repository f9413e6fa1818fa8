import Verif.Model.Wilson
import Verif.Lemmas.Stagg

/-!
# Lemmas for C90: Wilson vectors
-/

namespace Hila

open Matrix

variable {n : ℕ} {L : Fin n → ℕ} {N G H : ℕ}

theorem sqrt2_sq : ((Real.sqrt 2 : ℝ) : ℂ) * ((Real.sqrt 2 : ℝ) : ℂ) = 2 := by
  rw [← Complex.ofReal_mul, Real.mul_self_sqrt (by norm_num)]
  norm_num

theorem gamma_sq {S : SpinCode n G H N} (hS : S.IsCode) (d : Fin n) (w : WVec G N) : S.gamma d (S.gamma d w) = w := by
  have hI := Complex.I_mul_I
  cases hS <;> funext i a <;> fin_cases d <;> fin_cases i <;>
    simp [spin2, spin3, spin4, spin5, gammaMul2, gammaMul4, gammaList2, gammaList4] <;> (try linear_combination (-(w _ a)) * hI)

theorem gamma_anti {S : SpinCode n G H N} (hS : S.IsCode) (d e : Fin n) (hde : d ≠ e) (w : WVec G N) : S.gamma d (S.gamma e w) = -S.gamma e (S.gamma d w) := by
  cases hS <;> funext i a <;> fin_cases d <;> fin_cases e <;> first
    | exact absurd rfl hde
    | fin_cases i <;>
    simp [spin2, spin3, spin4, spin5, gammaMul2, gammaMul4, gammaList2, gammaList4]

theorem gamma_herm {S : SpinCode n G H N} (hS : S.IsCode) (d : Fin n) (v w : WVec G N) :
    ∑ i, star (S.gamma d v i) ⬝ᵥ w i = ∑ i, star (v i) ⬝ᵥ S.gamma d w i := by
  cases hS <;> fin_cases d <;>
    simp [spin2, spin3, spin4, spin5, gammaMul2, gammaMul4, gammaList2, gammaList4, Fin.sum_univ_four, Fin.sum_univ_two, star_smul] <;> (try ring1)

theorem gamma_colour {S : SpinCode n G H N} (hS : S.IsCode) (d : Fin n) (M : Mat N) (w : WVec G N) :
    S.gamma d (colourMul M w) = colourMul M (S.gamma d w) := by
  cases hS <;> funext i <;> fin_cases d <;> fin_cases i <;>
    simp [spin2, spin3, spin4, spin5, gammaMul2, gammaMul4, gammaList2, gammaList4, colourMul, mulVec_smul, mulVec_neg]

theorem gamma_smul {S : SpinCode n G H N} (hS : S.IsCode) (d : Fin n) (c : ℂ) (w : WVec G N) : S.gamma d (c • w) = c • S.gamma d w := by
  cases hS <;> funext i a <;> fin_cases d <;> fin_cases i <;>
    simp [spin2, spin3, spin4, spin5, gammaMul2, gammaMul4, gammaList2, gammaList4] <;> (try ring1)

theorem gamma_add {S : SpinCode n G H N} (hS : S.IsCode) (d : Fin n) (v w : WVec G N) : S.gamma d (v + w) = S.gamma d v + S.gamma d w := by
  cases hS <;> funext i a <;> fin_cases d <;> fin_cases i <;>
    simp [spin2, spin3, spin4, spin5, gammaMul2, gammaMul4, gammaList2, gammaList4] <;> (try ring1)

theorem expand_proj {S : SpinCode n G H N} (hS : S.IsCode) (d : Fin n) (s : ℤ) (hs : s = 1 ∨ s = -1) (w : WVec G N) :
    S.expand (S.proj w d s) d s = w + (s : ℂ) • S.gamma d w := by
  have hI := Complex.I_mul_I
  have h2 := sqrt2_sq
  rcases hs with rfl | rfl <;> cases hS <;> funext i a <;> fin_cases d <;> fin_cases i <;>
    simp [spin2, spin3, spin4, spin5, gammaMul2, gammaMul4, gammaList2, gammaList4, halfProj2, halfProj4, halfExpand2, halfExpand4] <;>
    (try simp only [mul_add, mul_sub, mul_neg, neg_mul, ← mul_assoc, hI, h2]) <;> (try ring1)

theorem proj_expand {S : SpinCode n G H N} (hS : S.IsCode) (d : Fin n) (s : ℤ) (hs : s = 1 ∨ s = -1) (c : WVec H N) :
    S.proj (S.expand c d s) d s = (2 : ℂ) • c := by
  have hI := Complex.I_mul_I
  have h2 := sqrt2_sq
  rcases hs with rfl | rfl <;> cases hS <;> funext i a <;> fin_cases d <;> fin_cases i <;>
    simp [spin2, spin3, spin4, spin5, halfProj2, halfProj4, halfExpand2, halfExpand4] <;>
    (try simp only [mul_add, mul_sub, mul_neg, neg_mul, ← mul_assoc, hI, h2]) <;> (try ring1)

theorem expand_colour {S : SpinCode n G H N} (hS : S.IsCode) (d : Fin n) (s : ℤ) (M : Mat N) (c : WVec H N) :
    S.expand (colourMul M c) d s = colourMul M (S.expand c d s) := by
  cases hS <;> funext i <;> fin_cases d <;> by_cases h : s = 1 <;> fin_cases i <;>
    simp [spin2, spin3, spin4, spin5, halfExpand2, halfExpand4, colourMul, mulVec_smul, mulVec_neg, h]

theorem half_expand_smul {S : SpinCode n G H N} (hS : S.IsCode) (d : Fin n) (s : ℤ) (k : ℂ) (c : WVec H N) :
    S.expand (k • c) d s = k • S.expand c d s := by
  cases hS <;> funext i a <;> fin_cases d <;> by_cases h : s = 1 <;> fin_cases i <;>
    simp [spin2, spin3, spin4, spin5, halfExpand2, halfExpand4, h] <;> (try ring1)

theorem expand_zero {S : SpinCode n G H N} (hS : S.IsCode) (d : Fin n) (s : ℤ) : S.expand 0 d s = 0 := by
  have h := half_expand_smul hS d s 0 0
  rwa [zero_smul, zero_smul] at h

theorem proj_smul {S : SpinCode n G H N} (hS : S.IsCode) (d : Fin n) (s : ℤ) (k : ℂ) (w : WVec G N) :
    S.proj (k • w) d s = k • S.proj w d s := by
  cases hS <;> funext i a <;> fin_cases d <;> by_cases h : s = 1 <;> fin_cases i <;>
    simp [spin2, spin3, spin4, spin5, halfProj2, halfProj4, h] <;> (try ring1)

theorem proj_zero {S : SpinCode n G H N} (hS : S.IsCode) (d : Fin n) (s : ℤ) : S.proj 0 d s = 0 := by
  have h := proj_smul hS d s 0 0
  rwa [zero_smul, zero_smul] at h

theorem code_pos {S : SpinCode n G H N} (hS : S.IsCode) : 0 < H := by cases hS <;> norm_num

theorem gamma_expand {S : SpinCode n G H N} (hS : S.IsCode) (d : Fin n) (s : ℤ) (hs : s = 1 ∨ s = -1) (c : WVec H N) :
    (s : ℂ) • S.gamma d (S.expand c d s) = S.expand c d s := by
  have h := expand_proj hS d s hs (S.expand c d s)
  rw [proj_expand hS d s hs, half_expand_smul hS, two_smul] at h
  exact (add_left_cancel h).symm

theorem expand_ne_zero {S : SpinCode n G H N} (hS : S.IsCode) (d : Fin n) (s : ℤ) (hs : s = 1 ∨ s = -1) (c : WVec H N) (hc : c ≠ 0) : S.expand c d s ≠ 0 := by
  intro h
  have h2 := proj_expand hS d s hs c
  rw [h, proj_zero hS] at h2
  exact hc ((smul_eq_zero.1 h2.symm).resolve_left two_ne_zero)

theorem halfSquarenorm_eq (c : WVec H N) : halfSquarenorm c = ∑ i, ∑ a, Complex.normSq (c i a) := by
  have h : ∀ (l : List (Fin H)) (r : ℝ), l.foldl (fun r i => r + ∑ a, Complex.normSq (c i a)) r = r + (l.map fun i => ∑ a, Complex.normSq (c i a)).sum := by
    intro l
    induction l with
    | nil => intro r; simp
    | cons i l ih => intro r; rw [List.foldl_cons, ih, List.map_cons, List.sum_cons]; ring
  unfold halfSquarenorm
  rw [h, zero_add, ← List.ofFn_eq_map, List.sum_ofFn]

theorem expand_norm {S : SpinCode n G H N} (hS : S.IsCode) (d : Fin n) (s : ℤ) (c : WVec H N) :
    ∑ i, ∑ a, Complex.normSq (S.expand c d s i a) = 2 * halfSquarenorm c := by
  rw [halfSquarenorm_eq]
  have h2 : Real.sqrt 2 * Real.sqrt 2 = 2 := Real.mul_self_sqrt (by norm_num)
  cases hS <;> fin_cases d <;> by_cases h : s = 1 <;>
    simp [spin2, spin3, spin4, spin5, halfExpand2, halfExpand4, h, Fin.sum_univ_four, Fin.sum_univ_two, Complex.normSq_mul, Complex.normSq_I,
      Complex.normSq_ofReal, ← Finset.mul_sum] <;> (try simp only [h2]) <;> (try ring1)

/-! ### The hopping term -/

theorem fwdBc_smul {T : Type} [AddCommGroup T] [Module ℂ T] (bc : Fin n → Bool) (f : PSite L → T) (d : Fin n) (x : PSite L) :
    fwdBc bc f d x = bcSign bc d x • f (x + unitStep d) := by
  unfold fwdBc bcSign
  split_ifs <;> simp

theorem bwdBc_smul [∀ d, NeZero (L d)] {T : Type} [AddCommGroup T] [Module ℂ T] (bc : Fin n → Bool) (f : PSite L → T) (d : Fin n) (x : PSite L) :
    bwdBc bc f d x = bcSign bc d (x - unitStep d) • f (x - unitStep d) := by
  unfold bwdBc bcSign
  have h : ((x - unitStep d : PSite L) d).val + 1 = L d ↔ (x d).val = 0 := by
    have : (x - unitStep d : PSite L) d = x d - 1 := by simp [unitStep]
    rw [this]
    exact zmod_pred_val (x d)
  simp only [h]
  split_ifs <;> simp

theorem colourMul_smul {s : ℕ} (M : Mat N) (k : ℂ) (w : WVec s N) : colourMul M (k • w) = k • colourMul M w := by
  funext i
  unfold colourMul
  rw [Pi.smul_apply, mulVec_smul, Pi.smul_apply]

theorem colourMul_add {s : ℕ} (M : Mat N) (v w : WVec s N) : colourMul M (v + w) = colourMul M v + colourMul M w := by
  funext i
  unfold colourMul
  rw [Pi.add_apply, mulVec_add, Pi.add_apply]

theorem smul_colourMul {s : ℕ} (M : Mat N) (k : ℂ) (w : WVec s N) : colourMul (k • M) w = k • colourMul M w := by
  funext i
  unfold colourMul
  rw [smul_mulVec, Pi.smul_apply]

theorem colourMul_mul {s : ℕ} (A B : Mat N) (w : WVec s N) : colourMul A (colourMul B w) = colourMul (A * B) w := by
  funext i
  unfold colourMul
  rw [mulVec_mulVec]

theorem colourMul_one {s : ℕ} (w : WVec s N) : colourMul 1 w = w := by
  funext i
  exact one_mulVec _

theorem colourMul_zero {s : ℕ} (M : Mat N) : colourMul M (0 : WVec s N) = 0 := by
  funext i
  exact mulVec_zero _

/-- What the hopping loops subtract at a site, without the factor `kappa`. -/
noncomputable def wHopAt (S : SpinCode n G H N) (bc : Fin n → Bool) (U : GField L N) (sign : ℤ) (psi : WField L G N) (x : PSite L) : WVec G N :=
  ∑ d, bcSign bc d x • (colourMul (U d x) (S.expand (S.proj (psi (x + unitStep d)) d sign) d sign) + S.expand (S.proj (psi (x + unitStep d)) d sign) d (-sign))

theorem wil_term [∀ d, NeZero (L d)] {S : SpinCode n G H N} (hS : S.IsCode) {par : Parity} (hp : par = .all ∨ ∀ d, Even (L d)) (bc : Fin n → Bool)
    (tmp : Fin n → WField L H N) (U : GField L N) (kappa : ℝ) (vin : WField L G N) (sign : ℤ) (d : Fin n) (x : PSite L) (hx : VisitsPar par x) :
    S.expand (colourMul ((kappa : ℂ) • U d x) (fwdBc bc (wilTemp S tmp vin par sign d) d x)) d sign +
        S.expand ((kappa : ℂ) • fwdBc bc (wilTemp S tmp vin par sign d) d x) d (-sign) =
      (kappa : ℂ) • bcSign bc d x • (colourMul (U d x) (S.expand (S.proj (vin (x + unitStep d)) d sign) d sign) +
        S.expand (S.proj (vin (x + unitStep d)) d sign) d (-sign)) := by
  have h : wilTemp S tmp vin par sign d (x + unitStep d) = S.proj (vin (x + unitStep d)) d sign := by
    unfold wilTemp assignOn
    rw [if_pos ((visits_fwd hp x d).2 hx)]
  rw [fwdBc_smul, h, smul_colourMul, colourMul_smul, half_expand_smul hS, half_expand_smul hS, half_expand_smul hS, half_expand_smul hS, expand_colour hS, smul_add, smul_add]

theorem wilHop_eq [∀ d, NeZero (L d)] {S : SpinCode n G H N} (hS : S.IsCode) {par : Parity} (hp : par = .all ∨ ∀ d, Even (L d)) (bc : Fin n → Bool)
    (tmp : Fin n → WField L H N) (U : GField L N) (kappa : ℝ) (vin vout : WField L G N) (sign : ℤ) (x : PSite L) :
    wilHop S bc tmp U kappa vin vout par sign x = if VisitsPar par x then vout x - (kappa : ℂ) • wHopAt S bc U sign vin x else vout x := by
  unfold wilHop
  have e : (fun (vo : WField L G N) (d : Fin n) => assignOn par vo fun x =>
      vo x - S.expand (colourMul ((kappa : ℂ) • U d x) (fwdBc bc (wilTemp S tmp vin par sign d) d x)) d sign -
        S.expand ((kappa : ℂ) • fwdBc bc (wilTemp S tmp vin par sign d) d x) d (-sign)) =
      fun vo d => assignOn par vo fun x => vo x + -(S.expand (colourMul ((kappa : ℂ) • U d x) (fwdBc bc (wilTemp S tmp vin par sign d) d x)) d sign +
        S.expand ((kappa : ℂ) • fwdBc bc (wilTemp S tmp vin par sign d) d x) d (-sign)) := by
    funext vo d
    congr 1
    funext x
    abel
  rw [e, assign_fold par (fun d x => -(S.expand (colourMul ((kappa : ℂ) • U d x) (fwdBc bc (wilTemp S tmp vin par sign d) d x)) d sign +
        S.expand ((kappa : ℂ) • fwdBc bc (wilTemp S tmp vin par sign d) d x) d (-sign)))]
  split_ifs with hx
  · rw [sub_eq_add_neg]
    congr 1
    rw [← List.ofFn_eq_map, List.sum_ofFn, Finset.sum_neg_distrib]
    unfold wHopAt
    rw [Finset.smul_sum]
    congr 1
    exact Finset.sum_congr rfl fun d _ => wil_term hS hp bc tmp U kappa vin sign d x hx
  · rfl

theorem set_fold {T : Type} [AddCommGroup T] (par : Parity) (f : Fin n → PSite L → T) (hn : 0 < n) (v : PSite L → T) (x : PSite L) :
    (List.finRange n).foldl (fun vo d => assignOn par vo fun x => (if d.val = 0 then 0 else vo x) + f d x) v x =
      if VisitsPar par x then ∑ d, f d x else v x := by
  obtain ⟨m, rfl⟩ : ∃ m, n = m + 1 := ⟨n - 1, by omega⟩
  rw [List.finRange_succ, List.foldl_cons, List.foldl_map]
  have e : (fun (vo : PSite L → T) (d : Fin m) => assignOn par vo fun x => (if d.succ.val = 0 then 0 else vo x) + f d.succ x) =
      fun vo d => assignOn par vo fun x => vo x + f d.succ x := by
    funext vo d
    congr 1
  rw [e, assign_fold par (fun (d : Fin m) x => f d.succ x)]
  by_cases hx : VisitsPar par x
  · rw [if_pos hx, if_pos hx, ← List.ofFn_eq_map, List.sum_ofFn, Fin.sum_univ_succ]
    unfold assignOn
    rw [if_pos hx]
    beta_reduce
    rw [if_pos (show (0 : Fin (m + 1)).val = 0 from rfl), zero_add]
  · rw [if_neg hx, if_neg hx]
    unfold assignOn
    rw [if_neg hx]

theorem wilHopSet_eq [∀ d, NeZero (L d)] {S : SpinCode n G H N} (hS : S.IsCode) {par : Parity} (hp : par = .all ∨ ∀ d, Even (L d)) (bc : Fin n → Bool)
    (tmp : Fin n → WField L H N) (U : GField L N) (kappa : ℝ) (vin vout : WField L G N) (sign : ℤ) (x : PSite L) :
    wilHopSet S bc tmp U kappa vin vout par sign x = if VisitsPar par x then -((kappa : ℂ) • wHopAt S bc U sign vin x) else vout x := by
  have hn : 0 < n := by cases hS <;> norm_num
  unfold wilHopSet
  have e : (fun (vo : WField L G N) (d : Fin n) => assignOn par vo fun x =>
      (if d.val = 0 then 0 else vo x) - S.expand (colourMul ((kappa : ℂ) • U d x) (fwdBc bc (wilTemp S tmp vin par sign d) d x)) d sign -
        S.expand ((kappa : ℂ) • fwdBc bc (wilTemp S tmp vin par sign d) d x) d (-sign)) =
      fun vo d => assignOn par vo fun x => (if d.val = 0 then 0 else vo x) +
        -(S.expand (colourMul ((kappa : ℂ) • U d x) (fwdBc bc (wilTemp S tmp vin par sign d) d x)) d sign +
        S.expand ((kappa : ℂ) • fwdBc bc (wilTemp S tmp vin par sign d) d x) d (-sign)) := by
    funext vo d
    congr 1
    funext x
    abel
  rw [e, set_fold par (fun d x => -(S.expand (colourMul ((kappa : ℂ) • U d x) (fwdBc bc (wilTemp S tmp vin par sign d) d x)) d sign +
        S.expand ((kappa : ℂ) • fwdBc bc (wilTemp S tmp vin par sign d) d x) d (-sign))) hn]
  split_ifs with hx
  · rw [Finset.sum_neg_distrib]
    unfold wHopAt
    rw [Finset.smul_sum]
    congr 1
    exact Finset.sum_congr rfl fun d _ => wil_term hS hp bc tmp U kappa vin sign d x hx
  · rfl

end Hila
