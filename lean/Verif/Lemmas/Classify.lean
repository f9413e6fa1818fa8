import Verif.Lemmas.Clusters
import Mathlib.Data.List.Sort

/-! # Lemmas about the cluster list -/

namespace Hila

/-- The total size recorded for a label. -/
def cntOf (l : List (ℕ × ℕ)) (x : ℕ) : ℕ := ((l.filter fun p => p.1 = x).map Prod.snd).sum

/-- Strictly increasing labels and positive sizes. -/
def ClistOk (l : List (ℕ × ℕ)) : Prop := l.Pairwise (fun p q => p.1 < q.1) ∧ ∀ p ∈ l, 0 < p.2

theorem cntOf_nil (x : ℕ) : cntOf [] x = 0 := rfl

theorem cntOf_cons (p : ℕ × ℕ) (l : List (ℕ × ℕ)) (x : ℕ) :
    cntOf (p :: l) x = (if p.1 = x then p.2 else 0) + cntOf l x := by
  unfold cntOf
  rw [List.filter_cons]
  by_cases h : p.1 = x <;> simp [h]

theorem cntOf_eq_zero (l : List (ℕ × ℕ)) (x : ℕ) (h : ∀ p ∈ l, p.1 ≠ x) : cntOf l x = 0 := by
  unfold cntOf
  rw [List.filter_eq_nil_iff.2 (fun p hp => by simpa using h p hp)]; rfl

theorem ClistOk.cons {p : ℕ × ℕ} {l : List (ℕ × ℕ)} (h : ClistOk (p :: l)) :
    ClistOk l ∧ 0 < p.2 ∧ ∀ q ∈ l, p.1 < q.1 :=
  ⟨⟨(List.pairwise_cons.1 h.1).2, fun q hq => h.2 q (List.mem_cons_of_mem _ hq)⟩,
    h.2 p List.mem_cons_self, (List.pairwise_cons.1 h.1).1⟩

theorem ClistOk.mk_cons {p : ℕ × ℕ} {l : List (ℕ × ℕ)} (h : ClistOk l) (hp : 0 < p.2)
    (hq : ∀ q ∈ l, p.1 < q.1) : ClistOk (p :: l) := by
  refine ⟨List.pairwise_cons.2 ⟨hq, h.1⟩, ?_⟩
  intro q hq'
  rcases List.mem_cons.1 hq' with rfl | h'
  · exact hp
  · exact h.2 q h'

/-- An entry of a good list is the total for its label. -/
theorem ClistOk.mem_iff {l : List (ℕ × ℕ)} (h : ClistOk l) (x s : ℕ) :
    (x, s) ∈ l ↔ cntOf l x = s ∧ 0 < s := by
  induction l with
  | nil => simp [cntOf_nil]; omega
  | cons p l ih =>
    obtain ⟨h1, h2, h3⟩ := h.cons
    rw [List.mem_cons, ih h1, cntOf_cons]
    by_cases hx : p.1 = x
    · have : cntOf l x = 0 := cntOf_eq_zero l x (fun q hq => by have := h3 q hq; omega)
      rw [if_pos hx, this]
      constructor
      · rintro (h | h)
        · subst h; exact ⟨rfl, h2⟩
        · omega
      · rintro ⟨h, _⟩
        left; ext
        · exact hx.symm
        · simpa using h.symm
    · rw [if_neg hx, Nat.zero_add]
      constructor
      · rintro (h | h)
        · subst h; exact absurd rfl hx
        · exact h
      · exact .inr

theorem ClistOk.exists_iff {l : List (ℕ × ℕ)} (h : ClistOk l) (x : ℕ) :
    (∃ p ∈ l, p.1 = x) ↔ 0 < cntOf l x := by
  constructor
  · rintro ⟨⟨y, s⟩, hp, rfl⟩
    obtain ⟨h1, h2⟩ := (h.mem_iff y s).1 hp
    show 0 < cntOf l y
    omega
  · intro hx
    exact ⟨(x, cntOf l x), (h.mem_iff x _).2 ⟨rfl, hx⟩, rfl⟩

theorem mergeClist_spec (a b : List (ℕ × ℕ)) (ha : ClistOk a) (hb : ClistOk b) :
    ClistOk (mergeClist a b) ∧ ∀ x, cntOf (mergeClist a b) x = cntOf a x + cntOf b x := by
  have low : ∀ (m : ℕ) (a b : List (ℕ × ℕ)), ClistOk (mergeClist a b) →
      (∀ x, cntOf (mergeClist a b) x = cntOf a x + cntOf b x) → (∀ q ∈ a, m < q.1) →
      (∀ q ∈ b, m < q.1) → ∀ q ∈ mergeClist a b, m < q.1 := by
    intro m a b hok hc h1 h2 q hq
    have hpos : 0 < cntOf (mergeClist a b) q.1 := (hok.exists_iff q.1).1 ⟨q, hq, rfl⟩
    rw [hc] at hpos
    by_contra hm
    have z1 : cntOf a q.1 = 0 := cntOf_eq_zero a _ (fun p hp => by have := h1 p hp; omega)
    have z2 : cntOf b q.1 = 0 := cntOf_eq_zero b _ (fun p hp => by have := h2 p hp; omega)
    omega
  fun_induction mergeClist a b with
  | case1 b => exact ⟨hb, fun x => by rw [cntOf_nil, Nat.zero_add]⟩
  | case2 a _ => exact ⟨ha, fun x => by rw [cntOf_nil, Nat.add_zero]⟩
  | case3 la sa a lb sb b hlt ih =>
    obtain ⟨a1, a2, a3⟩ := ha.cons
    obtain ⟨b1, b2, b3⟩ := hb.cons
    obtain ⟨i1, i2⟩ := ih a1 hb
    refine ⟨i1.mk_cons a2 (low la _ _ i1 i2 a3 ?_), fun x => ?_⟩
    · intro q hq
      rcases List.mem_cons.1 hq with rfl | hq
      · exact hlt
      · have := b3 q hq; dsimp only at this; omega
    · rw [cntOf_cons, i2, cntOf_cons (la, sa) a]; omega
  | case4 sa a la sb b _ ih =>
    obtain ⟨a1, a2, a3⟩ := ha.cons
    obtain ⟨b1, b2, b3⟩ := hb.cons
    obtain ⟨i1, i2⟩ := ih a1 b1
    refine ⟨i1.mk_cons (by show 0 < sa + sb; dsimp only at a2; omega) (low la _ _ i1 i2 a3 b3),
      fun x => ?_⟩
    rw [cntOf_cons, i2, cntOf_cons (la, sa), cntOf_cons (la, sb)]
    dsimp only
    split <;> omega
  | case5 la sa a lb sb b hlt hne ih =>
    obtain ⟨a1, a2, a3⟩ := ha.cons
    obtain ⟨b1, b2, b3⟩ := hb.cons
    obtain ⟨i1, i2⟩ := ih ha b1
    refine ⟨i1.mk_cons b2 (low lb _ _ i1 i2 ?_ b3), fun x => ?_⟩
    · intro q hq
      rcases List.mem_cons.1 hq with rfl | hq
      · show lb < la; omega
      · have := a3 q hq; dsimp only at this ⊢; omega
    · rw [cntOf_cons, i2, cntOf_cons (lb, sb)]; omega

/-! ### The local list -/

theorem clType_mono (x y : ℕ) (h : x ≤ y) (hy : y < 4611686018427387904)
    (hx : clLabelType x = clBackground) : clLabelType y = clBackground := by
  rw [clLabelType_eq] at *
  unfold clBackground at *
  omega

theorem runLengths_spec (l : List ℕ) (hs : l.Pairwise (· ≤ ·))
    (hb : ∀ x ∈ l, x < 4611686018427387904) :
    ClistOk (runLengths l) ∧
    (∀ x, clLabelType x ≠ clBackground → cntOf (runLengths l) x = l.count x) ∧
    (∀ p ∈ runLengths l, clLabelType p.1 ≠ clBackground ∧ p.1 ∈ l) := by
  fun_induction runLengths l with
  | case1 => exact ⟨⟨.nil, by simp⟩, by simp [cntOf_nil], by simp⟩
  | case2 x xs hx =>
    refine ⟨⟨.nil, by simp⟩, fun y hy => ?_, by simp⟩
    rw [cntOf_nil, eq_comm, List.count_eq_zero]
    intro hmem
    apply hy
    have : x ≤ y := by
      rcases List.mem_cons.1 hmem with rfl | hm
      · exact le_refl _
      · exact (List.pairwise_cons.1 hs).1 y hm
    exact clType_mono x y this (hb y hmem) hx
  | case3 x xs hx ih =>
    obtain ⟨s1, s2⟩ := List.pairwise_cons.1 hs
    have hsub := List.dropWhile_sublist (l := xs) (· == x)
    obtain ⟨i1, i2, i3⟩ := ih (s2.sublist hsub)
      (fun y hy => hb y (List.mem_cons_of_mem _ (hsub.subset hy)))
    -- the remaining labels are larger
    have hgt : ∀ y ∈ xs.dropWhile (· == x), x < y := by
      have hp : (xs.dropWhile (· == x)).Pairwise (· ≤ ·) := s2.sublist hsub
      cases hd : xs.dropWhile (· == x) with
      | nil => intro y hy; cases hy
      | cons z zs =>
        have hz : ¬ (z == x) = true := by
          have := List.head_dropWhile_not (p := (· == x)) (l := xs) (by rw [hd]; simp)
          simp only [hd, List.head_cons] at this
          rw [this]; simp
        have hz1 : x ≤ z := s1 z (hsub.subset (by rw [hd]; simp))
        have hzx : z ≠ x := by simpa using hz
        rw [hd] at hp
        intro y hy
        rcases List.mem_cons.1 hy with rfl | hy
        · omega
        · have := (List.pairwise_cons.1 hp).1 y hy; omega
    refine ⟨i1.mk_cons (by show 0 < 1 + _; omega) (fun q hq => hgt _ (i3 q hq).2), ?_, ?_⟩
    · intro y hy
      rw [cntOf_cons, i2 y hy]
      have hsplit : xs.count y = (xs.takeWhile (· == x)).count y + (xs.dropWhile (· == x)).count y := by
        rw [← List.count_append, List.takeWhile_append_dropWhile]
      have htw : ∀ z ∈ xs.takeWhile (· == x), z = x := fun z hz => by
        simpa using List.all_eq_true.1 (List.all_takeWhile (l := xs) (p := (· == x))) z hz
      rw [List.count_cons, hsplit]
      dsimp only
      by_cases hxy : x = y
      · subst hxy
        have h1 : (xs.takeWhile (· == x)).count x = (xs.takeWhile (· == x)).length :=
          List.count_eq_length.2 (fun b hb => (htw b hb).symm)
        have h2 : (xs.dropWhile (· == x)).count x = 0 := List.count_eq_zero.2
          (fun hm => absurd (hgt x hm) (lt_irrefl _))
        rw [if_pos rfl, h1, h2]; simp; omega
      · have h1 : (xs.takeWhile (· == x)).count y = 0 := List.count_eq_zero.2
          (fun hm => hxy (htw y hm).symm)
        rw [if_neg hxy, h1]; simp [hxy]
    · intro p hp
      rcases List.mem_cons.1 hp with rfl | hp
      · exact ⟨hx, List.mem_cons_self⟩
      · exact ⟨(i3 p hp).1, List.mem_cons_of_mem _ (hsub.subset (i3 p hp).2)⟩

theorem localClist_spec (l : List ℕ) (hb : ∀ x ∈ l, x < 4611686018427387904) :
    ClistOk (localClist l) ∧
    ∀ x, cntOf (localClist l) x = if clLabelType x = clBackground then 0 else l.count x := by
  have hperm := List.mergeSort_perm l (fun a b => decide (a ≤ b))
  have hsort : (l.mergeSort (fun a b => decide (a ≤ b))).Pairwise (· ≤ ·) := by
    have := List.pairwise_mergeSort (le := fun a b : ℕ => decide (a ≤ b))
      (by intro a b c; simp; omega) (by intro a b; simp; omega) l
    simpa using this
  obtain ⟨h1, h2, h3⟩ := runLengths_spec _ hsort (fun x hx => hb x (hperm.mem_iff.1 hx))
  refine ⟨h1, fun x => ?_⟩
  split
  · rename_i hx
    exact cntOf_eq_zero _ _ (fun p hp he => (h3 p hp).1 (by rw [he]; exact hx))
  · rename_i hx
    exact (h2 x hx).trans (hperm.count_eq x)

/-! ### The merge over the ranks -/

/-- Before the step of length `step`, the list of a rank divisible by `step` accounts for the ranks
from it up to `step` further. -/
def MergeInv (nn step : ℕ) (cl0 cl : ℕ → List (ℕ × ℕ)) : Prop :=
  ∀ r < nn, r % step = 0 → ClistOk (cl r) ∧
    ∀ x, cntOf (cl r) x = ((List.range (min step (nn - r))).map fun k => cntOf (cl0 (r + k)) x).sum

theorem mergeStep_inv (nn step : ℕ) (hstep : 0 < step) (cl0 cl : ℕ → List (ℕ × ℕ))
    (h : MergeInv nn step cl0 cl) : MergeInv nn (step * 2) cl0 (mergeStep nn step cl) := by
  intro r hr hmod
  have hm2 : r % (2 * step) = 0 := by rw [Nat.mul_comm]; exact hmod
  have hm1 : r % step = 0 := by
    have : step ∣ r := dvd_trans (dvd_mul_right step 2) (Nat.dvd_of_mod_eq_zero hmod)
    exact Nat.mod_eq_zero_of_dvd this
  obtain ⟨a1, a2⟩ := h r hr hm1
  unfold mergeStep
  rw [if_neg (by omega)]
  by_cases hlt : r + step < nn
  · rw [if_pos ⟨hm2, hlt⟩]
    obtain ⟨b1, b2⟩ := h (r + step) hlt (by rw [Nat.add_mod_right]; exact hm1)
    obtain ⟨m1, m2⟩ := mergeClist_spec _ _ a1 b1
    refine ⟨m1, fun x => ?_⟩
    rw [m2, a2, b2, show min step (nn - r) = step by omega,
      show min (step * 2) (nn - r) = step + min step (nn - (r + step)) by omega,
      List.range_add, List.map_append, List.sum_append, List.map_map]
    simp only [Function.comp_def, Nat.add_assoc]
  · rw [if_neg (by tauto)]
    refine ⟨a1, fun x => ?_⟩
    rw [a2, show min step (nn - r) = min (step * 2) (nn - r) by omega]

theorem mergeSteps_inv (nn : ℕ) (cl0 : ℕ → List (ℕ × ℕ)) (hnn : 0 < nn) (fuel : ℕ) :
    ∀ (step : ℕ) (cl : ℕ → List (ℕ × ℕ)), 0 < step → nn ≤ step + fuel → MergeInv nn step cl0 cl →
    ClistOk (mergeSteps nn fuel step cl 0) ∧ ∀ x, cntOf (mergeSteps nn fuel step cl 0) x =
      ((List.range nn).map fun k => cntOf (cl0 k) x).sum := by
  induction fuel with
  | zero =>
    intro step cl hs hf h
    obtain ⟨h1, h2⟩ := h 0 hnn (Nat.zero_mod _)
    refine ⟨h1, fun x => ?_⟩
    show cntOf (cl 0) x = _
    rw [h2, show min step (nn - 0) = nn by omega]
    simp
  | succ fuel ih =>
    intro step cl hs hf h
    unfold mergeSteps
    split
    · exact ih (step * 2) _ (by omega) (by omega) (mergeStep_inv nn step hs cl0 cl h)
    · obtain ⟨h1, h2⟩ := h 0 hnn (Nat.zero_mod _)
      refine ⟨h1, fun x => ?_⟩
      rw [h2, show min step (nn - 0) = nn by omega]
      simp

theorem classify_spec (nn : ℕ) (hnn : 0 < nn) (buf : ℕ → List ℕ)
    (hb : ∀ r < nn, ∀ x ∈ buf r, x < 4611686018427387904) (rank : ℕ) :
    ClistOk (classify nn buf rank) ∧ ∀ x, cntOf (classify nn buf rank) x =
      if clLabelType x = clBackground then 0 else ((List.range nn).map fun r => (buf r).count x).sum := by
  unfold classify
  have key := mergeSteps_inv nn (fun r => localClist (buf r)) hnn nn 1
    (fun r => localClist (buf r)) one_pos (by omega) ?_
  · refine ⟨key.1, fun x => ?_⟩
    rw [key.2]
    have : (List.range nn).map (fun r => cntOf (localClist (buf r)) x) = (List.range nn).map
        (fun r => if clLabelType x = clBackground then 0 else (buf r).count x) := by
      apply List.map_congr_left
      intro r hr
      exact (localClist_spec _ (hb r (List.mem_range.1 hr))).2 x
    rw [this]
    split
    · simp
    · rfl
  · intro r hr _
    refine ⟨(localClist_spec _ (hb r hr)).1, fun x => ?_⟩
    rw [show min 1 (nn - r) = 1 by omega]
    simp
end Hila
