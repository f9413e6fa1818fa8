import Verif.Props.Gauge
import Verif.Model.GaugeUpdate
import Mathlib.Algebra.BigOperators.Field

/-!
# The plaquettes of one link
-/

namespace Hila

open Function Matrix

variable {n : ℕ} {L : Fin n → ℕ} {N : ℕ}

theorem setLink_self (U : GField L N) (d : Fin n) (x : PSite L) (V : Mat N) : setLink U d x V d x = V := by simp [setLink]

theorem setLink_dir (U : GField L N) {d e : Fin n} (h : e ≠ d) (x : PSite L) (V : Mat N) : setLink U d x V e = U e := by simp [setLink, h]

theorem setLink_site (U : GField L N) (d : Fin n) {x y : PSite L} (h : y ≠ x) (V : Mat N) : setLink U d x V d y = U d y := by simp [setLink, h]

theorem gaugeStep_ne [∀ d, NeZero (L d)] (hL : ∀ d, Even (L d)) (d : Fin n) : (unitStep d : PSite L) ≠ 0 := by
  intro h
  have h1 := congrFun h d
  have : Fact (1 < L d) := ⟨by
    obtain ⟨k, hk⟩ := hL d
    have := NeZero.ne (L d)
    omega⟩
  simp [unitStep] at h1

/-- The real part of the trace of a plaquette. -/
noncomputable def plaqRe (U : GField L N) (d1 d2 : Fin n) (y : PSite L) : ℝ :=
  (U d1 y * U d2 (y + unitStep d1) * (U d1 (y + unitStep d2)).conjTranspose * (U d2 y).conjTranspose).trace.re

theorem re_trace_dagger (A : Mat N) : A.conjTranspose.trace.re = A.trace.re := by
  rw [Matrix.trace_conjTranspose]; simp

theorem plaqRe_symm (U : GField L N) (d1 d2 : Fin n) (y : PSite L) : plaqRe U d1 d2 y = plaqRe U d2 d1 y := by
  unfold plaqRe
  rw [← re_trace_dagger]
  congr 2
  simp only [conjTranspose_mul, conjTranspose_conjTranspose, Matrix.mul_assoc]

/-- The two terms of the staple with direction `d2`. -/
noncomputable def stapleTerm (U : GField L N) (d d2 : Fin n) (x : PSite L) : Mat N :=
  U d2 x * U d (x + unitStep d2) * (U d2 (x + unitStep d)).conjTranspose +
    (U d2 (x - unitStep d2)).conjTranspose * U d (x - unitStep d2) * U d2 (x - unitStep d2 + unitStep d)

theorem stapleSpec_terms (U : GField L N) (d : Fin n) (x : PSite L) : stapleSpec (fun _ _ => 1) U d x = ∑ d2 ∈ Finset.univ.erase d, stapleTerm U d d2 x := by
  unfold stapleSpec stapleTerm unitStep
  simp

variable [∀ d, NeZero (L d)]

theorem plaqSum_update (hL : ∀ d, Even (L d)) (U : GField L N) (d d2 : Fin n) (hd : d2 ≠ d) (x : PSite L) (V : Mat N) :
    ∑ y, plaqRe (setLink U d x V) d d2 y = ∑ y, plaqRe U d d2 y + ((V - U d x) * (stapleTerm U d d2 x).conjTranspose).trace.re := by
  rw [← sub_eq_iff_eq_add', ← Finset.sum_sub_distrib]
  have hne : x ≠ x - unitStep d2 := fun h => gaugeStep_ne hL d2 (by simpa using h.symm)
  have hne2 : x + unitStep d2 ≠ x := fun h => gaugeStep_ne hL d2 (by simpa using h)
  rw [Fintype.sum_eq_add x (x - unitStep d2) hne]
  · have h1 : plaqRe (setLink U d x V) d d2 x - plaqRe U d d2 x =
        ((V - U d x) * (U d2 x * U d (x + unitStep d2) * (U d2 (x + unitStep d)).conjTranspose).conjTranspose).trace.re := by
      unfold plaqRe
      rw [setLink_self, setLink_dir U hd, setLink_site U d hne2, ← Complex.sub_re, ← Matrix.trace_sub]
      congr 2
      simp only [conjTranspose_mul, conjTranspose_conjTranspose, Matrix.mul_assoc, Matrix.sub_mul]
    have h2 : plaqRe (setLink U d x V) d d2 (x - unitStep d2) - plaqRe U d d2 (x - unitStep d2) =
        ((V - U d x) * ((U d2 (x - unitStep d2)).conjTranspose * U d (x - unitStep d2) * U d2 (x - unitStep d2 + unitStep d)).conjTranspose).trace.re := by
      unfold plaqRe
      rw [setLink_dir U hd, sub_add_cancel, setLink_self, setLink_site U d hne.symm, ← Complex.sub_re, ← Matrix.trace_sub, ← re_trace_dagger]
      simp only [conjTranspose_mul, conjTranspose_conjTranspose, conjTranspose_sub, Matrix.mul_assoc]
      rw [← Matrix.mul_sub, ← Matrix.sub_mul, Matrix.trace_mul_comm]
      simp only [Matrix.mul_assoc]
    rw [h1, h2, ← Complex.add_re, ← Matrix.trace_add, ← Matrix.mul_add, ← conjTranspose_add]
    rfl
  · rintro y ⟨h1, h2⟩
    have h3 : y + unitStep d2 ≠ x := fun h => h2 (by rw [← h, add_sub_cancel_right])
    unfold plaqRe
    rw [setLink_dir U hd, setLink_site U d h1, setLink_site U d h3, sub_self]

theorem plaqSum_other (U : GField L N) (d d1 d2 : Fin n) (h1 : d1 ≠ d) (h2 : d2 ≠ d) (x : PSite L) (V : Mat N) :
    ∑ y, plaqRe (setLink U d x V) d1 d2 y = ∑ y, plaqRe U d1 d2 y := by
  refine Finset.sum_congr rfl fun y _ => ?_
  unfold plaqRe
  rw [setLink_dir U h1, setLink_dir U h2]

/-- The action as a function of one link. -/
theorem measurePlaq_update (hL : ∀ d, Even (L d)) (U : GField L N) (d : Fin n) (x : PSite L) (V : Mat N) :
    measurePlaq (setLink U d x V) = measurePlaq U - ((V - U d x) * (stapleSpec (fun _ _ => 1) U d x).conjTranspose).trace.re / N := by
  have hm : ∀ U : GField L N, measurePlaq U = ∑ d1, ∑ d2, if d1 < d2 then ∑ _x : PSite L, (1 : ℝ) - (∑ y, plaqRe U d1 d2 y) / N else 0 := by
    intro U
    unfold measurePlaq plaqRe
    refine Finset.sum_congr rfl fun d1 _ => Finset.sum_congr rfl fun d2 _ => ?_
    split
    · rw [Finset.sum_sub_distrib, Finset.sum_div]
    · rfl
  set D : Fin n → ℝ := fun d2 => ((V - U d x) * (stapleTerm U d d2 x).conjTranspose).trace.re with hD
  have hpair : ∀ d1 d2 : Fin n, d1 < d2 → ∑ y, plaqRe (setLink U d x V) d1 d2 y = ∑ y, plaqRe U d1 d2 y + ((if d1 = d then D d2 else 0) + if d2 = d then D d1 else 0) := by
    intro d1 d2 h
    by_cases e1 : d1 = d
    · have e2 : d2 ≠ d := by rintro rfl; exact absurd e1 h.ne
      rw [if_pos e1, if_neg e2, add_zero]
      subst e1
      exact plaqSum_update hL U d1 d2 e2 x V
    · by_cases e2 : d2 = d
      · rw [if_neg e1, if_pos e2, zero_add]
        subst e2
        simp only [plaqRe_symm _ d1 d2]
        exact plaqSum_update hL U d2 d1 e1 x V
      · rw [if_neg e1, if_neg e2, add_zero, add_zero, plaqSum_other U d d1 d2 e1 e2]
  have hsum : ∑ d1, ∑ d2, (if d1 < d2 then ((if d1 = d then D d2 else 0) + if d2 = d then D d1 else 0) else 0) = ∑ d2 ∈ Finset.univ.erase d, D d2 := by
    have e : ∀ d1 d2 : Fin n, (if d1 < d2 then ((if d1 = d then D d2 else 0) + if d2 = d then D d1 else 0) else 0) =
        (if d1 = d then (if d < d2 then D d2 else 0) else 0) + if d2 = d then (if d1 < d then D d1 else 0) else 0 := by
      intro d1 d2
      by_cases h1 : d1 = d <;> by_cases h2 : d2 = d <;> by_cases h3 : d1 < d2 <;> simp_all
    simp only [e, Finset.sum_add_distrib]
    have s1 : ∑ d1, ∑ d2, (if d1 = d then (if d < d2 then D d2 else 0) else 0) = ∑ d2, if d < d2 then D d2 else 0 := by
      rw [Finset.sum_comm]
      refine Finset.sum_congr rfl fun d2 _ => ?_
      rw [Finset.sum_ite_eq' Finset.univ d, if_pos (Finset.mem_univ d)]
    have s2 : ∑ d1, ∑ d2, (if d2 = d then (if d1 < d then D d1 else 0) else 0) = ∑ d1, if d1 < d then D d1 else 0 := by
      refine Finset.sum_congr rfl fun d1 _ => ?_
      rw [Finset.sum_ite_eq' Finset.univ d, if_pos (Finset.mem_univ d)]
    rw [s1, s2, ← Finset.sum_add_distrib, ← Finset.filter_ne', Finset.sum_filter]
    refine Finset.sum_congr rfl fun a _ => ?_
    rcases lt_trichotomy a d with h | h | h
    · rw [if_neg h.not_gt, if_pos h, if_pos h.ne, zero_add]
    · subst h; simp
    · rw [if_pos h, if_neg h.not_gt, if_pos h.ne', add_zero]
  rw [hm, hm, stapleSpec_terms, conjTranspose_sum, Finset.mul_sum, Matrix.trace_sum, Complex.re_sum]
  change _ = _ - (∑ d2 ∈ Finset.univ.erase d, D d2) / N
  rw [← hsum, Finset.sum_div, ← Finset.sum_sub_distrib]
  refine Finset.sum_congr rfl fun d1 _ => ?_
  rw [Finset.sum_div, ← Finset.sum_sub_distrib]
  refine Finset.sum_congr rfl fun d2 _ => ?_
  by_cases h : d1 < d2
  · rw [if_pos h, if_pos h, if_pos h, hpair d1 d2 h]
    ring
  · rw [if_neg h, if_neg h, if_neg h]; simp

/-- The staple of a link does not change when links of the same direction and parity change. -/
theorem stapleSpec_congr (hL : ∀ d, Even (L d)) (b : Bool) (U V : GField L N) (d : Fin n) (x : PSite L) (hx : VisitsPar (parityOf b) x)
    (h1 : ∀ e, e ≠ d → U e = V e) (h2 : ∀ y, ¬ VisitsPar (parityOf b) y → U d y = V d y) :
    stapleSpec (fun _ _ => 1) U d x = stapleSpec (fun _ _ => 1) V d x := by
  have hL2 : ∀ e, 2 ∣ L e := fun e => (hL e).two_dvd
  have hopp : ∀ y : PSite L, VisitsPar (oppParity (parityOf b)) y → ¬ VisitsPar (parityOf b) y := by
    intro y h1 h2
    cases b <;> simp [parityOf, oppParity, Parity.ofBits, Parity.bits, VisitsPar] at h1 h2 <;> omega
  have hback : ∀ e, U d (x - unitStep e) = V d (x - unitStep e) := fun e => h2 _ (hopp _ (visits_opp _ x e (Or.inr (hL2 e)) hx))
  have hfwd : ∀ e, U d (x + unitStep e) = V d (x + unitStep e) := fun e => h2 _ fun hv => by
    have h3 := visits_opp _ _ e (Or.inr (hL2 e)) hv
    rw [add_sub_cancel_right] at h3
    exact hopp _ h3 hx
  rw [stapleSpec_terms, stapleSpec_terms]
  refine Finset.sum_congr rfl fun e he => ?_
  have hne := Finset.ne_of_mem_erase he
  unfold stapleTerm
  rw [h1 e hne, hback, hfwd]

end Hila
