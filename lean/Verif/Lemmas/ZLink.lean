import Verif.Model.ZLinkSpec
import Verif.Lemmas.PlaqSplit
import Verif.Lemmas.Stagg
import Mathlib.Tactic.Ring

/-!
# Lemmas for C94: the action of one link
-/

set_option linter.unusedSectionVars false

namespace Hila

open Function

variable {R : Type} [DecidableEq R] {n : ℕ} {L : Fin n → ℕ} [∀ d, NeZero (L d)]

/-- A sum over pairs of directions of which only those with `d` count. -/
theorem sum_pairs_one (d : Fin n) (D : Fin n → Fin n → ℝ) (hs : ∀ a b, D a b = D b a) (h0 : ∀ a b, a ≠ d → b ≠ d → D a b = 0) :
    ∑ a, ∑ b, (if a < b then D a b else 0) = ∑ b, if b ≠ d then D d b else 0 := by
  have e : ∀ a b, (if a < b then D a b else 0) = (if a = d then (if d < b then D d b else 0) else 0) + if b = d then (if a < d then D d a else 0) else 0 := by
    intro a b
    by_cases ha : a = d
    · subst ha
      by_cases hb : b = a
      · subst hb; simp
      · simp [hb]
    · by_cases hb : b = d
      · subst hb
        simp [ha, hs]
      · simp [ha, hb, h0 a b ha hb]
  rw [Finset.sum_congr rfl fun a _ => (Finset.sum_congr rfl fun b _ => e a b).trans Finset.sum_add_distrib, Finset.sum_add_distrib,
    Finset.sum_comm (f := fun a b => if a = d then (if d < b then D d b else 0) else 0)]
  simp only [Finset.sum_ite_eq', Finset.sum_ite_eq, Finset.mem_univ, if_true]
  rw [← Finset.sum_add_distrib]
  refine Finset.sum_congr rfl fun b _ => ?_
  rcases lt_trichotomy b d with h | h | h
  · simp [h, h.ne, h.le]
  · simp [h]
  · simp [h, h.ne', h.le]

theorem zCurl_anti (H : ZField L) (d1 d2 : Fin n) (x : PSite L) : zCurl H d2 d1 x = -zCurl H d1 d2 x := by
  unfold zCurl; ring

/-- The square of the plaquettes in a plane. -/
noncomputable def planeSum (H : ZField L) (sw : ZShift L) (a b : Fin n) : ℝ := ∑ x, ((zCurl H a b x : ℝ) + sw a b x) ^ 2

theorem planeSum_symm (H : ZField L) {sw : ZShift L} (hs : AntiShift sw) (a b : Fin n) : planeSum H sw a b = planeSum H sw b a := by
  unfold planeSum
  refine Finset.sum_congr rfl fun x _ => ?_
  rw [zCurl_anti, hs]
  push_cast
  ring

theorem zAction_planes (beta : ℝ) (H : ZField L) (sw : ZShift L) : zAction beta H sw = beta / 2 * ∑ a, ∑ b, if a < b then planeSum H sw a b else 0 := rfl

/-- The sum of the staples of a link. -/
noncomputable def zStapleSpec (H : ZField L) (sw : ZShift L) (d : Fin n) (x : PSite L) : ℝ :=
  ∑ b, if b ≠ d then 2 * (((H b (x + unitStep d) - H d (x + unitStep b) - H b x : ℤ) : ℝ) + sw d b x +
    (((-H b (x - unitStep b + unitStep d) - H d (x - unitStep b) + H b (x - unitStep b) : ℤ) : ℝ) - sw d b (x - unitStep b))) else 0

/-- The links with a new value on one of them. -/
def zSetLink (H : ZField L) (d : Fin n) (x : PSite L) (k : ℤ) : ZField L := update H d (update (H d) x k)

theorem zSetLink_same (H : ZField L) (d : Fin n) (x : PSite L) (k : ℤ) (y : PSite L) : zSetLink H d x k d y = if y = x then k else H d y := by
  unfold zSetLink
  rw [update_self, update_apply]

theorem zSetLink_ne (H : ZField L) {d e : Fin n} (h : e ≠ d) (x : PSite L) (k : ℤ) : zSetLink H d x k e = H e := update_of_ne h _ _

theorem planeSum_zSetLink (hL : ∀ d, Even (L d)) (H : ZField L) (sw : ZShift L) (d b : Fin n) (hb : b ≠ d) (x : PSite L) (k : ℤ) :
    planeSum (zSetLink H d x k) sw d b - planeSum H sw d b = 2 * ((k : ℝ) ^ 2 - (H d x : ℝ) ^ 2) +
      ((k : ℝ) - H d x) * (2 * (((H b (x + unitStep d) - H d (x + unitStep b) - H b x : ℤ) : ℝ) + sw d b x +
    (((-H b (x - unitStep b + unitStep d) - H d (x - unitStep b) + H b (x - unitStep b) : ℤ) : ℝ) - sw d b (x - unitStep b)))) := by
  unfold planeSum
  rw [← Finset.sum_sub_distrib]
  have hne : x ≠ x - unitStep b := fun h => gaugeStep_ne hL b (by simpa using h.symm)
  have hne2 : x + unitStep b ≠ x := fun h => gaugeStep_ne hL b (by simpa using h)
  rw [Fintype.sum_eq_add x (x - unitStep b) hne]
  · unfold zCurl
    rw [zSetLink_ne H hb]
    simp only [zSetLink_same, if_true, if_neg hne2, if_neg hne.symm, sub_add_cancel]
    push_cast
    ring
  · rintro y ⟨h1, h2⟩
    have h3 : y + unitStep b ≠ x := fun h => h2 (by rw [← h, add_sub_cancel_right])
    unfold zCurl
    rw [zSetLink_ne H hb]
    simp only [zSetLink_same, if_neg h1, if_neg h3, sub_self]

/-- The change of the action when a link is changed. -/
theorem zAction_zSetLink (hL : ∀ d, Even (L d)) (hn : 1 ≤ n) (beta : ℝ) (H : ZField L) {sw : ZShift L} (hs : AntiShift sw) (d : Fin n) (x : PSite L) (k : ℤ) :
    zAction beta (zSetLink H d x k) sw = zAction beta H sw +
      beta / 2 * (zLinkAction n (zStapleSpec H sw d x) k - zLinkAction n (zStapleSpec H sw d x) (H d x)) := by
  rw [zAction_planes, zAction_planes, ← sub_eq_iff_eq_add', ← mul_sub]
  congr 1
  rw [← Finset.sum_sub_distrib]
  have e : ∀ a, (∑ b, if a < b then planeSum (zSetLink H d x k) sw a b else 0) - (∑ b, if a < b then planeSum H sw a b else 0) =
      ∑ b, if a < b then planeSum (zSetLink H d x k) sw a b - planeSum H sw a b else 0 := by
    intro a
    rw [← Finset.sum_sub_distrib]
    refine Finset.sum_congr rfl fun b _ => ?_
    split <;> simp
  simp only [e]
  rw [sum_pairs_one d]
  · have e2 : ∀ b, (if b ≠ d then planeSum (zSetLink H d x k) sw d b - planeSum H sw d b else 0) =
        (if b ≠ d then 2 * ((k : ℝ) ^ 2 - (H d x : ℝ) ^ 2) else 0) + ((k : ℝ) - H d x) * (if b ≠ d then 2 * (((H b (x + unitStep d) - H d (x + unitStep b) - H b x : ℤ) : ℝ) + sw d b x +
          (((-H b (x - unitStep b + unitStep d) - H d (x - unitStep b) + H b (x - unitStep b) : ℤ) : ℝ) - sw d b (x - unitStep b))) else 0) := by
      intro b
      by_cases hb : b = d
      · simp [hb]
      · rw [if_pos hb, if_pos hb, if_pos hb, planeSum_zSetLink hL H sw d b hb]
    simp only [e2, Finset.sum_add_distrib]
    rw [← Finset.mul_sum, ← zStapleSpec, Finset.sum_ite, Finset.sum_const_zero, add_zero, Finset.sum_const, Finset.filter_ne', Finset.card_erase_of_mem (Finset.mem_univ _),
      Finset.card_univ, Fintype.card_fin, nsmul_eq_mul, Nat.cast_sub hn]
    unfold zLinkAction
    norm_num
    ring
  · intro a b
    rw [planeSum_symm _ hs a b, planeSum_symm H hs a b]
  · intro a b ha hb
    unfold planeSum zCurl
    rw [zSetLink_ne H ha, zSetLink_ne H hb, sub_self]

/-- The staples do not depend on the link itself. -/
theorem zStapleSpec_congr (H H' : ZField L) (sw : ZShift L) (d : Fin n) (x : PSite L) (h1 : ∀ b, b ≠ d → H b = H' b)
    (h2 : ∀ b, b ≠ d → H d (x + unitStep b) = H' d (x + unitStep b) ∧ H d (x - unitStep b) = H' d (x - unitStep b)) : zStapleSpec H sw d x = zStapleSpec H' sw d x := by
  unfold zStapleSpec
  refine Finset.sum_congr rfl fun b _ => ?_
  by_cases hb : b = d
  · simp [hb]
  · rw [if_pos hb, if_pos hb, h1 b hb, (h2 b hb).1, (h2 b hb).2]

theorem zStapleSpec_zSetLink (hL : ∀ d, Even (L d)) (H : ZField L) (sw : ZShift L) (d : Fin n) (x : PSite L) (k : ℤ) :
    zStapleSpec (zSetLink H d x k) sw d x = zStapleSpec H sw d x := by
  refine zStapleSpec_congr _ _ _ _ _ (fun b hb => zSetLink_ne H hb x k) fun b _ => ?_
  have hne : x - unitStep b ≠ x := fun h => gaugeStep_ne hL b (by simpa using h)
  have hne2 : x + unitStep b ≠ x := fun h => gaugeStep_ne hL b (by simpa using h)
  rw [zSetLink_same, zSetLink_same, if_neg hne, if_neg hne2]
  exact ⟨rfl, rfl⟩

/-! ### The program's staples -/

/-- One summand of the staples. -/
noncomputable def zTerm (H : ZField L) (sw : ZShift L) (d : Fin n) (x : PSite L) (b : Fin n) : ℝ :=
  2 * (((H b (x + unitStep d) - H d (x + unitStep b) - H b x : ℤ) : ℝ) + sw d b x +
    (((-H b (x - unitStep b + unitStep d) - H d (x - unitStep b) + H b (x - unitStep b) : ℤ) : ℝ) - sw d b (x - unitStep b)))

theorem zStapleStep_first (H : ZField L) (sw : ZShift L) (d : Fin n) (par : Parity) (s : ZStapleState L) (b : Fin n) : (zStapleStep H sw d par s b).first = false := by
  unfold zStapleStep
  split <;> rfl

theorem zStapleStep_eq (hL : ∀ d, Even (L d)) (H : ZField L) (sw : ZShift L) (d : Fin n) (par : Parity) (s : ZStapleState L) (b : Fin n) (x : PSite L)
    (hx : VisitsPar par x) : (zStapleStep H sw d par s b).staples x =
      if s.first then some (zTerm H sw d x b) else (s.staples x).map fun a => a + zTerm H sw d x b := by
  have h2 : ∀ z : PSite L → Option ℝ, ∀ v, assignOn (oppParity par) z v (x - unitStep b) = v (x - unitStep b) := fun z v => by
    unfold assignOn; rw [if_pos ((visits_bwd (Or.inr hL) x b).2 hx)]
  have h3 : ∀ z v : PSite L → Option ℝ, assignOn par z v x = v x := fun z v => by unfold assignOn; rw [if_pos hx]
  unfold zStapleStep
  dsimp only
  by_cases hf : s.first = true
  · rw [if_pos hf, if_pos hf]
    simp only [h3, h2, Option.map_some, zTerm]
    norm_num
  · rw [if_neg hf, if_neg hf]
    simp only [h3, h2, Option.map_some, zTerm]
    cases s.staples x with
    | none => rfl
    | some a => norm_num

theorem zStaples_fold (hL : ∀ d, Even (L d)) (H : ZField L) (sw : ZShift L) (d : Fin n) (par : Parity) (x : PSite L) (hx : VisitsPar par x) (l : List (Fin n))
    (s : ZStapleState L) (a : ℝ) (hf : s.first = false) (ha : s.staples x = some a) :
    (l.foldl (zStapleStep H sw d par) s).staples x = some (a + (l.map (zTerm H sw d x)).sum) := by
  induction l generalizing s a with
  | nil => simp [ha]
  | cons b l ih =>
    rw [List.foldl_cons, ih _ (a + zTerm H sw d x b) (zStapleStep_first ..)]
    · simp [add_assoc]
    · rw [zStapleStep_eq hL _ _ _ _ _ _ _ hx, hf, ha]
      simp

/-- The program's staples are the sum of the staples. -/
theorem zStaples_eq (hL : ∀ d, Even (L d)) (hn : 2 ≤ n) (H : ZField L) (sw : ZShift L) (d : Fin n) (par : Parity) (x : PSite L) (hx : VisitsPar par x) :
    zStaples H sw d par x = some (zStapleSpec H sw d x) := by
  have hsum : zStapleSpec H sw d x = (((List.finRange n).filter (· ≠ d)).map (zTerm H sw d x)).sum := by
    have e : zStapleSpec H sw d x = ∑ b, if b ≠ d then zTerm H sw d x b else 0 := rfl
    rw [e, ← Finset.sum_filter, ← List.sum_toFinset _ ((List.nodup_finRange n).filter _)]
    refine Finset.sum_congr ?_ fun _ _ => rfl
    ext b
    simp
  rw [hsum]
  unfold zStaples
  have hne : (List.finRange n).filter (· ≠ d) ≠ [] := by
    have : Nontrivial (Fin n) := Fin.nontrivial_iff_two_le.2 hn
    obtain ⟨b, hb⟩ := exists_ne d
    exact List.ne_nil_of_mem (a := b) (List.mem_filter.2 ⟨List.mem_finRange b, by simpa using hb⟩)
  cases hl : (List.finRange n).filter (· ≠ d) with
  | nil => exact absurd hl hne
  | cons b l =>
    rw [List.foldl_cons, zStaples_fold hL _ _ _ _ _ hx _ _ (zTerm H sw d x b) (zStapleStep_first ..)]
    · simp
    · rw [zStapleStep_eq hL _ _ _ _ _ _ _ hx]
      simp

end Hila
