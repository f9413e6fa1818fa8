import Verif.Lemmas.Coord

/-!
# C32: coordinate and direction arithmetic is consistent

The specification side uses only Lean's integers: divisibility, order and vector addition.
-/

namespace Hila

open BigOperators

/-- `pmod a b` is the representative of `a` modulo `b` in `0 .. b-1`, for negative `a` too. -/
theorem C32_pmod_representative (a b : ℤ) (hb : 0 < b) :
    0 ≤ pmod a b ∧ pmod a b < b ∧ b ∣ a - pmod a b := by
  rw [pmod_eq_emod a b hb]
  exact ⟨Int.emod_nonneg a (by omega), Int.emod_lt_of_pos a hb,
    Int.dvd_self_sub_emod⟩

/-- It is the only such representative. -/
theorem C32_pmod_unique (a b r : ℤ) (hb : 0 < b) (h0 : 0 ≤ r) (h1 : r < b) (hd : b ∣ a - r) :
    r = pmod a b := by
  rw [pmod_eq_emod a b hb]
  rw [← Int.emod_eq_of_lt h0 h1]
  exact (Int.emod_eq_emod_iff_emod_sub_eq_zero.2 (Int.emod_eq_zero_of_dvd hd)).symm

example : pmod (-7) 5 = 3 ∧ (0 : ℤ) < 5 := by decide

/-- Reducing a coordinate modulo the lattice size gives a lattice site, depends only on the
coordinate modulo the size, and is compatible with addition (so is idempotent). -/
theorem C32_mod_periodic {n : ℕ} (L : CV n) (hL : ∀ d, 0 < L d) (a b : CV n) :
    (∀ d, 0 ≤ a.mod L d ∧ a.mod L d < L d) ∧
    (a.mod L = b.mod L ↔ ∀ d, L d ∣ a d - b d) ∧
    (a.mod L + b.mod L).mod L = (a + b).mod L ∧
    (a.mod L).mod L = a.mod L := by
  refine ⟨fun d => ?_, ⟨fun h d => ?_, fun h => ?_⟩, ?_, ?_⟩
  · have := C32_pmod_representative (a d) (L d) (hL d); exact ⟨this.1, this.2.1⟩
  · have h' := congrFun h d
    simp only [CV.mod, pmod_eq_emod _ _ (hL d)] at h'
    exact Int.dvd_of_emod_eq_zero (Int.emod_eq_emod_iff_emod_sub_eq_zero.1 h')
  · funext d
    simp only [CV.mod, pmod_eq_emod _ _ (hL d)]
    exact Int.emod_eq_emod_iff_emod_sub_eq_zero.2 (Int.emod_eq_zero_of_dvd (h d))
  · funext d
    simp only [CV.mod, Pi.add_apply, pmod_eq_emod _ _ (hL d)]
    exact (Int.add_emod _ _ _).symm
  · funext d
    simp only [CV.mod, pmod_eq_emod _ _ (hL d)]
    exact Int.emod_emod_of_dvd _ (dvd_refl _)

example : ∀ d, 0 < (fun _ => 4 : CV 3) d := by decide

/-- The opposite direction is a fixed-point-free involution exchanging up and down
directions, and corresponds to the negated unit vector. -/
theorem C32_opposite_direction {n : ℕ} (d : Dir n) :
    oppDir (oppDir d) = d ∧ oppDir d ≠ d ∧ (isUp (oppDir d) = !isUp d) ∧
    CV.ofDir (oppDir d) = - CV.ofDir d ∧ absDir (oppDir d) = absDir d ∧
    isUp (absDir d) = true := by
  refine ⟨oppDir_oppDir d, oppDir_ne d, isUp_oppDir d, ofDir_oppDir d, ?_, ?_⟩
  · unfold absDir; rw [isUp_oppDir, oppDir_oppDir]; cases isUp d <;> simp
  · unfold absDir; cases h : isUp d
    · simp [isUp_oppDir, h]
    · simp [h]

/-- Directions are exactly the unit vectors: `ofDir` is injective and hits every vector with
one component `±1` and the others zero. -/
theorem C32_direction_unit_vectors {n : ℕ} :
    Function.Injective (CV.ofDir : Dir n → CV n) ∧
    ∀ (i : Fin n) (s : ℤ), s = 1 ∨ s = -1 →
      ∃ d : Dir n, CV.ofDir d = fun j => if j = i then s else 0 := by
  constructor
  · intro d e h
    have key : ∀ i, CV.ofDir d i = CV.ofDir e i := fun i => congrFun h i
    have h1 := key (axis d)
    rw [ofDir_apply, ofDir_apply] at h1
    have hax : axis d = axis e := by
      by_contra hne
      rw [if_pos rfl, if_neg hne] at h1
      revert h1; cases isUp d <;> decide
    rw [if_pos rfl, if_pos hax] at h1
    cases hd : isUp d <;> cases he : isUp e
    · rw [isDown_eq_upDir hd, isDown_eq_upDir he, hax]
    · rw [hd, he] at h1; exact absurd h1 (by decide)
    · rw [hd, he] at h1; exact absurd h1 (by decide)
    · rw [isUp_eq_upDir hd, isUp_eq_upDir he, hax]
  · intro i s hs
    rcases hs with rfl | rfl
    · refine ⟨upDir i, ?_⟩
      funext j; rw [ofDir_apply, axis_upDir, isUp_upDir]; simp
    · refine ⟨oppDir (upDir i), ?_⟩
      funext j; rw [ofDir_apply, axis_oppDir, axis_upDir, isUp_oppDir, isUp_upDir]; simp

/-- All mixed coordinate/direction operators are vector arithmetic with unit vectors. -/
theorem C32_direction_arithmetic {n : ℕ} (c : CV n) (d e : Dir n) (k : ℤ) :
    c.addDir d = c + CV.ofDir d ∧ c.subDir d = c - CV.ofDir d ∧
    CV.dirSub d c = CV.ofDir d - c ∧
    CV.dirAddDir d e = CV.ofDir d + CV.ofDir e ∧
    CV.dirSubDir d e = CV.ofDir d - CV.ofDir e ∧
    CV.smulDir k d = k • CV.ofDir d ∧
    c.addDir (oppDir d) = c.subDir d := by
  refine ⟨addDir_eq c d, subDir_eq c d, ?_, ?_, ?_, ?_, ?_⟩
  · funext i; simp [CV.dirSub, CV.ofDir, dirDot_comm d]
  · funext i; simp [CV.dirAddDir, CV.ofDir, dirDot_comm d, dirDot_comm e]
  · funext i; simp [CV.dirSubDir, CV.ofDir, dirDot_comm d, dirDot_comm e]
  · funext i; simp [CV.smulDir, CV.ofDir]
  · rw [addDir_eq, subDir_eq, ofDir_oppDir]; funext i; simp [sub_eq_add_neg]

/-- A coordinate vector is recognised as direction `d` exactly if it is the unit vector of
`d`; the comparison operator with a direction agrees. -/
theorem C32_is_direction {n : ℕ} (c : CV n) (d : Dir n) :
    (c.isDirection = some d ↔ c = CV.ofDir d) ∧ (c.eqDir d = true ↔ c = CV.ofDir d) := by
  have norm0 : ∀ v : CV n, v.normL1 = 0 ↔ v = 0 := by
    intro v
    unfold CV.normL1
    rw [Finset.sum_eq_zero_iff_of_nonneg (fun i _ => abs_nonneg _)]
    constructor
    · intro h; funext i; exact abs_eq_zero.1 (h i (Finset.mem_univ i))
    · intro h i _; rw [h]; simp
  constructor
  · constructor
    · intro h
      unfold CV.isDirection at h
      by_cases hn : c.normL1 = 1
      · simp only [hn, ne_eq, not_true_eq_false, if_false] at h
        obtain ⟨i, -, hi⟩ := List.exists_of_findSome?_eq_some h
        have hci : |c i| = 1 := by
          by_cases h1 : c i = 1
          · simp [h1]
          · by_cases h2 : c i = -1
            · simp [h2]
            · simp [h1, h2] at hi
        have hrest : ∀ j, j ≠ i → c j = 0 := by
          intro j hj
          have hsplit : c.normL1 = |c i| + ∑ k ∈ Finset.univ.erase i, |c k| := by
            unfold CV.normL1
            rw [Finset.add_sum_erase _ (fun k => |c k|) (Finset.mem_univ i)]
          have h0 : ∑ k ∈ Finset.univ.erase i, |c k| = 0 := by omega
          rw [Finset.sum_eq_zero_iff_of_nonneg (fun i _ => abs_nonneg _)] at h0
          exact abs_eq_zero.1 (h0 j (Finset.mem_erase.2 ⟨hj, Finset.mem_univ j⟩))
        funext j
        by_cases h1 : c i = 1
        · simp [h1] at hi
          subst hi
          rw [ofDir_apply, axis_upDir, isUp_upDir]
          by_cases hj : j = i
          · simp [hj, h1]
          · simp [hj, hrest j hj]
        · by_cases h2 : c i = -1
          · simp [h2] at hi
            subst hi
            rw [ofDir_apply, axis_oppDir, axis_upDir, isUp_oppDir, isUp_upDir]
            by_cases hj : j = i
            · simp [hj, h2]
            · simp [hj, hrest j hj]
          · simp [h1, h2] at hi
      · simp [hn] at h
    · intro h
      have hn : c.normL1 = 1 := by
        rw [h]; unfold CV.normL1
        have : ∀ i, |CV.ofDir d i| = if i = axis d then 1 else 0 := by
          intro i; rw [ofDir_apply]; split
          · cases isUp d <;> simp
          · simp
        simp only [this]
        rw [Finset.sum_ite_eq' Finset.univ (axis d) (fun _ => (1 : ℤ))]; simp
      unfold CV.isDirection
      simp only [hn, ne_eq, not_true_eq_false, if_false]
      have hf : ∀ i : Fin n, (if c i = 1 then some (upDir i) else if c i = -1 then
          some (oppDir (upDir i)) else none) = if i = axis d then some d else none := by
        intro i
        rw [h, ofDir_apply]
        by_cases hi : i = axis d
        · subst hi
          cases hu : isUp d
          · simpa [hu] using (isDown_eq_upDir hu).symm
          · simpa [hu] using (isUp_eq_upDir hu).symm
        · simp [hi]
      simp only [hf]
      cases hfs : (List.finRange n).findSome? (fun i => if i = axis d then some d else none) with
      | none =>
        rw [List.findSome?_eq_none_iff] at hfs
        have := hfs (axis d) (List.mem_finRange _)
        simp at this
      | some e =>
        obtain ⟨i, -, hi⟩ := List.exists_of_findSome?_eq_some hfs
        by_cases hia : i = axis d
        · simp [hia] at hi; rw [hi]
        · simp [hia] at hi
  · unfold CV.eqDir
    rw [beq_iff_eq, norm0, subDir_eq, sub_eq_zero]

/-- Opposite parity exchanges EVEN and ODD, fixes ALL and is an involution. -/
theorem C32_opposite_parity :
    oppParity .even = .odd ∧ oppParity .odd = .even ∧ oppParity .all = .all ∧
    oppParity .none = .none ∧ ∀ p, oppParity (oppParity p) = p := by
  refine ⟨by decide, by decide, by decide, by decide, fun p => by cases p <;> decide⟩

/-- Moving one step in any direction flips the parity of a coordinate, as long as no periodic
wrap is applied. Parity is well defined for negative coordinates. -/
theorem C32_step_flips_parity {n : ℕ} (c : CV n) (d : Dir n) :
    (c.parity = .even ↔ 2 ∣ ∑ i, c i) ∧
    (c.addDir d).parity = oppParity c.parity := by
  refine ⟨parity_even_iff c, ?_⟩
  have hs : ∑ i, (c.addDir d) i = (∑ i, c i) + if isUp d then 1 else -1 := by
    rw [addDir_eq]; simp only [Pi.add_apply]; rw [Finset.sum_add_distrib, sum_ofDir]
  rcases parity_cases c with h | h
  · rw [h]; show _ = Parity.odd
    rw [parity_even_iff] at h
    rw [parity_odd_iff, hs]; cases isUp d <;> simp <;> omega
  · rw [h]; show _ = Parity.even
    rw [parity_odd_iff] at h
    rw [parity_even_iff, hs]; cases isUp d <;> simp <;> omega

/-- With the periodic wrap the parity still flips if the extent along the direction is even. If
the extent is odd, it flips for steps inside the lattice and does not flip for a step across the
boundary. -/
theorem C32_periodic_step_parity {n : ℕ} (L c : CV n) (hc : ∀ i, 0 ≤ c i ∧ c i < L i) (d : Dir n) :
    let moved := (c.addDir d).mod L
    let wraps : Prop := if isUp d then c (axis d) = L (axis d) - 1 else c (axis d) = 0
    moved.parity = if wraps ∧ ¬ 2 ∣ L (axis d) then c.parity else oppParity c.parity := by
  intro moved wraps
  have hL : ∀ i, 0 < L i := fun i => by have := hc i; omega
  have hmoved : ∀ i, i ≠ axis d → moved i = c i := by
    intro i hi
    show pmod (c.addDir d i) (L i) = _
    rw [pmod_eq_emod _ _ (hL i), addDir_eq, Pi.add_apply, ofDir_apply, if_neg hi, add_zero]
    exact Int.emod_eq_of_lt (hc i).1 (hc i).2
  set a := axis d with ha
  have hsum : ∀ v : CV n, ∑ i, v i = v a + ∑ i ∈ Finset.univ.erase a, v i := fun v => by
    rw [Finset.add_sum_erase _ _ (Finset.mem_univ a)]
  have hrest : ∑ i ∈ Finset.univ.erase a, moved i = ∑ i ∈ Finset.univ.erase a, c i :=
    Finset.sum_congr rfl fun i hi => hmoved i (Finset.mem_erase.1 hi).1
  have hma : moved a = (c a + if isUp d then 1 else -1) % L a := by
    show pmod (c.addDir d a) (L a) = _
    rw [pmod_eq_emod _ _ (hL a), addDir_eq, Pi.add_apply, ofDir_apply, if_pos ha]
  have hca := hc a
  have hval : moved a = if wraps then (if isUp d then c a + 1 - L a else c a - 1 + L a)
      else (if isUp d then c a + 1 else c a - 1) := by
    rw [hma]
    by_cases hw : wraps
    · rw [if_pos hw]
      cases hu : isUp d
      · simp only [wraps, hu] at hw
        have hw' : c a = 0 := by simpa using hw
        rw [hw']
        simp only [Bool.false_eq_true, if_false]
        rw [← Int.add_emod_right, Int.emod_eq_of_lt] <;> omega
      · simp only [wraps, hu] at hw
        have hw' : c a = L a - 1 := by simpa using hw
        rw [hw']; simp
    · rw [if_neg hw]
      cases hu : isUp d
      · simp only [wraps, hu] at hw
        have hw' : ¬ c a = 0 := by simpa using hw
        simp only [Bool.false_eq_true, if_false]
        rw [Int.emod_eq_of_lt] <;> omega
      · simp only [wraps, hu] at hw
        have hw' : ¬ c a = L a - 1 := by simpa using hw
        simp only [if_true]
        rw [Int.emod_eq_of_lt] <;> omega
  by_cases hw : wraps ∧ ¬ 2 ∣ L a
  · rw [if_pos hw, parity_eq_iff, hsum moved, hsum c, hrest, hval, if_pos hw.1]
    cases isUp d <;> simp <;> omega
  · rw [if_neg hw]
    have hdiff : ¬ 2 ∣ (∑ i, moved i) - ∑ i, c i := by
      rw [hsum moved, hsum c, hrest, hval]
      by_cases hw1 : wraps
      · have : 2 ∣ L a := by by_contra h; exact hw ⟨hw1, h⟩
        rw [if_pos hw1]; cases isUp d <;> simp <;> omega
      · rw [if_neg hw1]; cases isUp d <;> simp <;> omega
    rcases parity_cases c with h | h <;> rcases parity_cases moved with h' | h' <;> rw [h, h'] <;>
      first
        | rfl
        | exact absurd ((parity_eq_iff moved c).1 (by rw [h, h'])) hdiff

example : (∀ i, 0 ≤ (![2, 1] : CV 2) i ∧ (![2, 1] : CV 2) i < (![3, 4] : CV 2) i) := by decide

/-- The parity of neighbouring sites is *not* always opposite: on a 3-site ring the site 2 and
its up neighbour 0 are both even. (Concrete witness for the odd-extent case.) -/
theorem C32_odd_extent_same_parity :
    ¬ ∀ (L c : CV 1) (d : Dir 1), (∀ i, 0 ≤ c i ∧ c i < L i) →
      ((c.addDir d).mod L).parity = oppParity c.parity := by
  intro h
  have := h ![3] ![2] 0 (by decide)
  revert this; decide

/-- `is_divisible` means divisibility in every component. -/
theorem C32_is_divisible {n : ℕ} (c m : CV n) :
    c.isDivisible m = true ↔ ∀ d, m d ∣ c d := by
  unfold CV.isDivisible
  simp [List.all_eq_true, Int.dvd_iff_tmod_eq_zero]

end Hila
