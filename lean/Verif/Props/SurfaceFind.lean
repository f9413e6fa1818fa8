import Verif.Model.SurfaceSpec
import Mathlib.Algebra.BigOperators.Field

/-!
# C92: smearing of the Polyakov loops and the search of the surfaces
-/

set_option linter.unusedSectionVars false

namespace Hila

/-! ## Smearing -/

section Smear

variable {L : Fin 3 → ℕ} [∀ d, NeZero (L d)]

theorem shift_sum (pl : PSite L → ℝ) (a : PSite L) : ∑ x, pl (x + a) = ∑ x, pl x := Equiv.sum_comp (Equiv.addRight a) pl

theorem shift_sum_sub (pl : PSite L → ℝ) (a : PSite L) : ∑ x, pl (x - a) = ∑ x, pl x := Equiv.sum_comp (Equiv.subRight a) pl

/-- **C92 (smearing).** Smearing keeps the sum over the volume, and for a positive coefficient the field stays between its bounds. -/
theorem C92_smear (c : ℝ) (hc : 0 ≤ c) (nsmear : ℤ) (pl : PSite L → ℝ) (lo hi : ℝ) (h : ∀ x, lo ≤ pl x ∧ pl x ≤ hi) :
    ∑ x, smearPolyakov c nsmear pl x = ∑ x, pl x ∧ ∀ x, lo ≤ smearPolyakov c nsmear pl x ∧ smearPolyakov c nsmear pl x ≤ hi := by
  have hp : 0 < 1 + 6 * c := by linarith
  unfold smearPolyakov
  generalize nsmear.toNat = k
  induction k generalizing pl with
  | zero => exact ⟨rfl, h⟩
  | succ k ih =>
    have hstep : ∑ x, smearTurn c pl x = ∑ x, pl x := by
      unfold smearTurn
      rw [← Finset.sum_div, Finset.sum_add_distrib, ← Finset.mul_sum]
      simp only [Finset.sum_add_distrib, shift_sum, shift_sum_sub]
      rw [div_eq_iff hp.ne']
      ring
    have hb : ∀ x, lo ≤ smearTurn c pl x ∧ smearTurn c pl x ≤ hi := by
      intro x
      unfold smearTurn
      rw [le_div_iff₀ hp, div_le_iff₀ hp]
      have h0 := h x
      have h1 := h (x + unitStep 0)
      have h2 := h (x - unitStep 0)
      have h3 := h (x + unitStep 1)
      have h4 := h (x - unitStep 1)
      have h5 := h (x + unitStep 2)
      have h6 := h (x - unitStep 2)
      constructor
      · have : c * (6 * lo) ≤ c * (pl (x + unitStep 0) + pl (x - unitStep 0) + pl (x + unitStep 1) + pl (x - unitStep 1) + pl (x + unitStep 2) + pl (x - unitStep 2)) :=
          mul_le_mul_of_nonneg_left (by linarith) hc
        linarith
      · have : c * (pl (x + unitStep 0) + pl (x - unitStep 0) + pl (x + unitStep 1) + pl (x - unitStep 1) + pl (x + unitStep 2) + pl (x - unitStep 2)) ≤ c * (6 * hi) :=
          mul_le_mul_of_nonneg_left (by linarith) hc
        linarith
    obtain ⟨h1, h2⟩ := ih (smearTurn c pl) hb
    exact ⟨h1.trans hstep, h2⟩

end Smear

/-! ## Extrema of the profile -/

/-- The search of the extrema, for the part of the profile that was seen. -/
def ExtremaOk (seen : List ℝ) (s : ℝ × ℝ × Option ℕ × Option ℕ) : Prop :=
  (∀ v ∈ seen, s.1 ≤ v ∧ v ≤ s.2.1) ∧ 0 ≤ s.2.1 ∧ (s.2.2.1 = none → s.1 = 1e8) ∧ (s.2.2.2 = none → s.2.1 = 0) ∧
  (∀ i, s.2.2.1 = some i → seen[i]? = some s.1) ∧ ∀ j, s.2.2.2 = some j → seen[j]? = some s.2.1

theorem extrema_step (seen : List ℝ) (s : ℝ × ℝ × Option ℕ × Option ℕ) (h : ExtremaOk seen s) (v : ℝ) : ExtremaOk (seen ++ [v]) (extremaStep s (v, seen.length)) := by
  obtain ⟨mn, mx, im, jm⟩ := s
  obtain ⟨h1, h2, h3, h4, h5, h6⟩ := h
  have hold : ∀ (i : ℕ) (w : ℝ), seen[i]? = some w → (seen ++ [v])[i]? = some w := by
    intro i w hi
    rw [List.getElem?_append_left (List.getElem?_eq_some_iff.1 hi).1]
    exact hi
  have hnew : (seen ++ [v])[seen.length]? = some v := by simp
  simp only at h1 h2 h3 h4 h5 h6
  unfold ExtremaOk extremaStep
  by_cases ha : mn > v <;> by_cases hb : mx < v <;> simp only [ha, hb, if_true, if_false]
  · refine ⟨fun w hw => ?_, h2.trans hb.le, by simp, by simp, fun i hi => ?_, fun j hj => ?_⟩
    · rcases List.mem_append.1 hw with hw | hw
      · exact ⟨ha.le.trans (h1 w hw).1, (h1 w hw).2.trans hb.le⟩
      · rw [List.mem_singleton.1 hw]; exact ⟨le_rfl, le_rfl⟩
    · rw [← Option.some.inj hi]; exact hnew
    · rw [← Option.some.inj hj]; exact hnew
  · refine ⟨fun w hw => ?_, h2, by simp, h4, fun i hi => ?_, fun j hj => hold _ _ (h6 j hj)⟩
    · rcases List.mem_append.1 hw with hw | hw
      · exact ⟨ha.le.trans (h1 w hw).1, (h1 w hw).2⟩
      · rw [List.mem_singleton.1 hw]; exact ⟨le_rfl, not_lt.1 hb⟩
    · rw [← Option.some.inj hi]; exact hnew
  · refine ⟨fun w hw => ?_, h2.trans hb.le, h3, by simp, fun i hi => hold _ _ (h5 i hi), fun j hj => ?_⟩
    · rcases List.mem_append.1 hw with hw | hw
      · exact ⟨(h1 w hw).1, (h1 w hw).2.trans hb.le⟩
      · rw [List.mem_singleton.1 hw]; exact ⟨not_lt.1 ha, le_rfl⟩
    · rw [← Option.some.inj hj]; exact hnew
  · refine ⟨fun w hw => ?_, h2, h3, h4, fun i hi => hold _ _ (h5 i hi), fun j hj => hold _ _ (h6 j hj)⟩
    rcases List.mem_append.1 hw with hw | hw
    · exact h1 w hw
    · rw [List.mem_singleton.1 hw]; exact ⟨not_lt.1 ha, not_lt.1 hb⟩

theorem extrema_ok (profile : List ℝ) : ExtremaOk profile (extrema profile) := by
  unfold extrema
  induction profile using List.reverseRecOn with
  | nil => exact ⟨by simp, le_rfl, fun _ => rfl, fun _ => rfl, by simp, by simp⟩
  | append_singleton seen v ih =>
    rw [List.zipIdx_append, List.foldl_append]
    simpa using extrema_step seen _ ih v

/-- **C92 (start of the search).** If the values of the profile are less than 1e8 and one is positive then the search starts in the middle of the way that goes up
from a place `i` of the least value to a place `j` of the greatest value, around the end of the lattice if `j` comes before `i`. -/
theorem C92_start (profile : List ℝ) (hlt : ∀ v ∈ profile, v < 1e8) (hpos : ∃ v ∈ profile, 0 < v) :
    ∃ i j lo hi, profile[i]? = some lo ∧ profile[j]? = some hi ∧ (∀ v ∈ profile, lo ≤ v ∧ v ≤ hi) ∧
      surfStart profile.length profile = some ((i + (if i < j then j - i else j + profile.length - i) / 2) % profile.length) := by
  obtain ⟨h1, h2, h3, h4, h5, h6⟩ := extrema_ok profile
  obtain ⟨v, hv, hv0⟩ := hpos
  have hi : (extrema profile).2.2.1 ≠ none := fun h => absurd (h3 h) (by linarith [(h1 v hv).1, hlt v hv] |> ne_of_lt)
  have hj : (extrema profile).2.2.2 ≠ none := fun h => by
    have := h4 h
    linarith [(h1 v hv).2]
  obtain ⟨i, hi⟩ := Option.ne_none_iff_exists'.1 hi
  obtain ⟨j, hj⟩ := Option.ne_none_iff_exists'.1 hj
  have hi' := h5 i hi
  have hj' := h6 j hj
  have hil := (List.getElem?_eq_some_iff.1 hi').1
  have hjl := (List.getElem?_eq_some_iff.1 hj').1
  refine ⟨i, j, _, _, hi', hj', h1, ?_⟩
  unfold surfStart
  dsimp only
  rw [hi, hj]
  simp only [Option.bind_some, Option.map_some, Option.some.injEq, gt_iff_lt]
  by_cases h : i < j
  · rw [if_pos h, if_pos h, Nat.mod_eq_of_lt (by omega)]
    omega
  · rw [if_neg h, if_neg h]
    congr 1
    omega

/-- **C92 (start of the search without a positive value, negation).** If no value of the profile is positive then `maxloc` is used without a value. -/
theorem C92_start_unset (Lz : ℕ) (profile : List ℝ) (h : ∀ v ∈ profile, v ≤ 0) : surfStart Lz profile = none := by
  have key : ∀ (l : List (ℝ × ℕ)) (s : ℝ × ℝ × Option ℕ × Option ℕ), (∀ v ∈ l, v.1 ≤ 0) → s.2.1 = 0 → s.2.2.2 = none →
      (l.foldl extremaStep s).2.2.2 = none := by
    intro l
    induction l with
    | nil => intro s _ _ h; exact h
    | cons a l ih =>
      intro s hl h0 hn
      rw [List.foldl_cons]
      have ha := hl a List.mem_cons_self
      have e : (extremaStep s a).2.1 = 0 ∧ (extremaStep s a).2.2.2 = none := by
        unfold extremaStep
        by_cases hm : s.1 > a.1
        · simp only [hm, if_true, h0, not_lt.2 ha, if_false]
          exact ⟨trivial, hn⟩
        · simp only [hm, if_false, h0, not_lt.2 ha]
          exact ⟨trivial, hn⟩
      exact ih _ (fun v hv => hl v (List.mem_cons_of_mem _ hv)) e.1 e.2
  unfold surfStart extrema
  dsimp only
  rw [key profile.zipIdx _ (fun v hv => h v.1 (List.fst_mem_of_mem_zipIdx hv)) rfl rfl]
  cases (profile.zipIdx.foldl extremaStep (1e8, 0, none, none)).2.2.1 <;> rfl

example : surfStart 4 [-0.1, -0.3, -0.2, -0.1] = none := C92_start_unset 4 _ (by intro v hv; simp at hv; rcases hv with rfl | rfl | rfl | rfl <;> norm_num)

/-! ## The search -/

/-- The value at the place `z`, around the end of the lattice. -/
def CyclicAt (ln : List ℝ) (z : ℤ) (v : ℝ) : Prop := ∃ k : ℕ, ln[k]? = some v ∧ (k : ℤ) ≡ z [ZMOD ln.length]

theorem lineAt_some (ln : List ℝ) (h0 : ln ≠ []) (z : ℤ) (hz : -(ln.length : ℤ) ≤ z) : ∃ v, lineAt ln z = some v ∧ CyclicAt ln z v := by
  have hl : 0 < ln.length := List.length_pos_iff.2 h0
  have hn : 0 ≤ z + ln.length := by omega
  have e : (z + (ln.length : ℤ)).tmod ln.length = (z + ln.length) % ln.length := Int.tmod_eq_emod_of_nonneg hn
  have h1 : 0 ≤ (z + (ln.length : ℤ)) % ln.length := Int.emod_nonneg _ (by omega)
  have h2 : (z + (ln.length : ℤ)) % ln.length < ln.length := Int.emod_lt_of_pos _ (by omega)
  obtain ⟨k, hk⟩ := Int.eq_ofNat_of_zero_le h1
  have hkl : k < ln.length := by omega
  refine ⟨ln[k], ?_, k, List.getElem?_eq_getElem hkl, ?_⟩
  · unfold lineAt
    dsimp only
    rw [e, if_pos h1, hk, Int.toNat_natCast, List.getElem?_eq_getElem hkl]
  · unfold Int.ModEq
    rw [← hk, Int.emod_emod_of_dvd _ dvd_rfl, Int.add_emod_right]

theorem CyclicAt.unique {ln : List ℝ} {z : ℤ} {v w : ℝ} (h1 : CyclicAt ln z v) (h2 : CyclicAt ln z w) : v = w := by
  obtain ⟨k, hk, hk'⟩ := h1
  obtain ⟨l, hl, hl'⟩ := h2
  have a := (List.getElem?_eq_some_iff.1 hk).1
  have b := (List.getElem?_eq_some_iff.1 hl).1
  have c := hk'.trans hl'.symm
  unfold Int.ModEq at c
  rw [Int.emod_eq_of_lt (by omega) (by omega), Int.emod_eq_of_lt (by omega) (by omega)] at c
  have : k = l := by omega
  subst this
  exact Option.some.inj (hk.symm.trans hl)

theorem searchDown_spec (ln : List ℝ) (h0 : ln ≠ []) (past : ℝ → Prop) (start : ℤ) (hs : 0 ≤ start) (fuel : ℕ) (z : ℤ) (hz : z ≤ start)
    (hw : ((start - z : ℤ) : ℝ) < ln.length * 0.4 + 1) (hf : (ln.length : ℤ) + 1 - (start - z) ≤ fuel) :
    ∃ z', searchDown ln past start fuel z = some z' ∧ z' ≤ z ∧ ((start - z' : ℤ) : ℝ) < ln.length * 0.4 + 1 ∧ (∀ y, z' < y → y ≤ z → ∀ v, CyclicAt ln y v → past v) ∧
      ((∃ v, CyclicAt ln z' v ∧ ¬ past v) ∨ (ln.length : ℝ) * 0.4 ≤ ((start - z' : ℤ) : ℝ)) := by
  have hl : 0 < ln.length := List.length_pos_iff.2 h0
  have hl1 : (1 : ℝ) ≤ ln.length := by exact_mod_cast hl
  induction fuel generalizing z with
  | zero =>
    exfalso
    have h1 : ((ln.length : ℤ) + 1 - (start - z) : ℤ) ≤ 0 := by simpa using hf
    have h2 : ((ln.length + 1 : ℤ) : ℝ) ≤ ((start - z : ℤ) : ℝ) := by exact_mod_cast (by omega : (ln.length : ℤ) + 1 ≤ start - z)
    push_cast at h2 hw
    linarith
  | succ fuel ih =>
    have hzl : -(ln.length : ℤ) ≤ z := by
      by_contra hc
      have h2 : ((ln.length : ℤ) : ℝ) + 1 ≤ ((start - z : ℤ) : ℝ) := by exact_mod_cast (by omega : (ln.length : ℤ) + 1 ≤ start - z)
      push_cast at h2 hw
      linarith
    obtain ⟨v, hv, hc⟩ := lineAt_some ln h0 z hzl
    rw [searchDown, hv, Option.bind_some]
    by_cases hp : past v ∧ ((start - z : ℤ) : ℝ) < ln.length * 0.4
    · rw [if_pos hp]
      obtain ⟨z', h1, h2, h3, h4, h5⟩ := ih (z - 1) (by omega) (by push_cast; have := hp.2; push_cast at this; linarith) (by push_cast at hf; omega)
      refine ⟨z', h1, by omega, h3, fun y hy1 hy2 w hy => ?_, h5⟩
      by_cases hyz : y = z
      · rw [hyz] at hy; rw [hy.unique hc]; exact hp.1
      · exact h4 y hy1 (by omega) w hy
    · rw [if_neg hp]
      refine ⟨z, rfl, le_rfl, hw, fun y h1 h2 => absurd h1 (by omega), ?_⟩
      by_cases hpv : past v
      · exact Or.inr (not_lt.1 fun h => hp ⟨hpv, h⟩)
      · exact Or.inl ⟨v, hc, hpv⟩

theorem searchUp_spec (ln : List ℝ) (h0 : ln ≠ []) (past : ℝ → Prop) (start : ℤ) (hs : 0 ≤ start) (fuel : ℕ) (z : ℤ)
    (hw : ((start - z : ℤ) : ℝ) < ln.length * 0.4 + 1) (hw2 : ((z - start : ℤ) : ℝ) < ln.length * 0.4 + 1) (hf : (ln.length : ℤ) + 1 - (z - start) ≤ fuel) :
    ∃ z', searchUp ln past start fuel z = some z' ∧ z ≤ z' ∧ (∀ y, z < y → y ≤ z' → ∀ v, CyclicAt ln y v → ¬ past v) ∧
      ((∃ v, CyclicAt ln (z' + 1) v ∧ past v) ∨ (ln.length : ℝ) * 0.4 ≤ ((z' - start : ℤ) : ℝ)) := by
  have hl : 0 < ln.length := List.length_pos_iff.2 h0
  have hl1 : (1 : ℝ) ≤ ln.length := by exact_mod_cast hl
  induction fuel generalizing z with
  | zero =>
    exfalso
    have h1 : ((ln.length : ℤ) + 1 - (z - start) : ℤ) ≤ 0 := by simpa using hf
    have h2 : ((ln.length : ℤ) : ℝ) + 1 ≤ ((z - start : ℤ) : ℝ) := by exact_mod_cast (by omega : (ln.length : ℤ) + 1 ≤ z - start)
    push_cast at h2 hw2
    linarith
  | succ fuel ih =>
    have hzl : -(ln.length : ℤ) ≤ z + 1 := by
      by_contra hc
      have h2 : ((ln.length : ℤ) : ℝ) + 1 ≤ ((start - z : ℤ) : ℝ) := by exact_mod_cast (by omega : (ln.length : ℤ) + 1 ≤ start - z)
      push_cast at h2 hw
      linarith
    obtain ⟨v, hv, hc⟩ := lineAt_some ln h0 (z + 1) hzl
    rw [searchUp, hv, Option.bind_some]
    by_cases hp : ¬ past v ∧ ((z - start : ℤ) : ℝ) < ln.length * 0.4
    · rw [if_pos hp]
      obtain ⟨z', h1, h2, h4, h5⟩ := ih (z + 1) (by push_cast at hw ⊢; linarith) (by push_cast; have := hp.2; push_cast at this; linarith) (by push_cast at hf; omega)
      refine ⟨z', h1, by omega, fun y hy1 hy2 w hw => ?_, h5⟩
      by_cases hyz : y = z + 1
      · subst hyz; rw [hw.unique hc]; exact hp.1
      · exact h4 y (by omega) hy2 w hw
    · rw [if_neg hp]
      refine ⟨z, rfl, le_rfl, fun y h1 h2 => absurd h1 (by omega), ?_⟩
      by_cases hpv : past v
      · exact Or.inl ⟨v, hc, hpv⟩
      · exact Or.inr (not_lt.1 fun h => hp ⟨hpv, h⟩)

/-- **C92 (position of a surface).** Let a site at most 0.4 of the length below the start be below the surface, and a site at most 0.4 of the length above the start
be past it. For the first surface, below means at most the level, past means more than the level; for the second surface the other way round. Then the search
terminates, reads only elements of the line and gives a height `h` between two neighbouring sites, the lower one below the surface and the upper one past it, at which
the straight line between the two values has the level. -/
theorem C92_surface (ln : List ℝ) (second : Bool) (level : ℝ) (start : ℤ) (hs : 0 ≤ start) (fuel : ℕ) (hf : 2 * ln.length + 2 ≤ fuel) (h0 : ln ≠ [])
    (j k : ℕ) (hj : (j : ℝ) < ln.length * 0.4) (hk0 : 0 < k) (hk : (k : ℝ) ≤ ln.length * 0.4) (below above : ℝ) (hb : CyclicAt ln (start - j) below)
    (ha : CyclicAt ln (start + k) above) (hside : if second then level < below ∧ above ≤ level else below ≤ level ∧ level < above) :
    ∃ (h : ℝ) (z : ℤ) (a b : ℝ), findSurface ln second level start fuel = some h ∧ CyclicAt ln z a ∧ CyclicAt ln (z + 1) b ∧
      (if second then level < a ∧ b ≤ level else a ≤ level ∧ level < b) ∧ (z : ℝ) ≤ h ∧ h ≤ z + 1 ∧ a + (h - z) * (b - a) = level := by
  have hl : 0 < ln.length := List.length_pos_iff.2 h0
  have hl1 : (1 : ℝ) ≤ ln.length := by exact_mod_cast hl
  have hnb : ¬ pastSurface second level below := by
    unfold pastSurface
    cases second
    · simp only [Bool.false_eq_true, if_false] at hside ⊢; exact not_lt.2 hside.1
    · simp only [if_true] at hside ⊢; exact not_le.2 hside.1
  have hna : pastSurface second level above := by
    unfold pastSurface
    cases second
    · simp only [Bool.false_eq_true, if_false] at hside ⊢; exact hside.2
    · simp only [if_true] at hside ⊢; exact hside.2
  obtain ⟨z1, d1, d2, d3, d4, d5⟩ := searchDown_spec ln h0 (pastSurface second level) start hs fuel start le_rfl
    (by rw [sub_self, Int.cast_zero]; positivity) (by push_cast; omega)
  have hz1j : start - j ≤ z1 := by
    by_contra hc
    exact hnb (d4 (start - j) (by omega) (by omega) below hb)
  have hz1 : ∃ v, CyclicAt ln z1 v ∧ ¬ pastSurface second level v := by
    rcases d5 with h | h
    · exact h
    · have : ((start - z1 : ℤ) : ℝ) ≤ j := by exact_mod_cast (by omega : start - z1 ≤ (j : ℤ))
      linarith
  have hz1r : ((start - z1 : ℤ) : ℝ) < ln.length * 0.4 + 1 := d3
  have hz1l : -(ln.length : ℤ) - 1 < z1 := by
    by_contra hc
    have h2 : ((ln.length : ℤ) : ℝ) + 1 ≤ ((start - z1 : ℤ) : ℝ) := by exact_mod_cast (by omega : (ln.length : ℤ) + 1 ≤ start - z1)
    push_cast at h2 hz1r
    linarith
  obtain ⟨z2, e1, e2, e3, e4⟩ := searchUp_spec ln h0 (pastSurface second level) start hs fuel z1 hz1r
    (by
      have : ((z1 - start : ℤ) : ℝ) ≤ 0 := by exact_mod_cast (by omega : z1 - start ≤ 0)
      linarith)
    (by
      have h2 : ((start - z1 : ℤ) : ℝ) < ((ln.length + 1 : ℤ) : ℝ) := by push_cast at hz1r ⊢; linarith
      have h3 : start - z1 < (ln.length : ℤ) + 1 := by exact_mod_cast h2
      push_cast
      omega)
  have hz2k : z2 < start + k := by
    by_contra hc
    exact e3 (start + k) (by omega) (by omega) above ha hna
  obtain ⟨a, hac, hap⟩ : ∃ v, CyclicAt ln z2 v ∧ ¬ pastSurface second level v := by
    by_cases h : z2 = z1
    · rw [h]; exact hz1
    · obtain ⟨v, _, hv⟩ := lineAt_some ln h0 z2 (by omega)
      exact ⟨v, hv, e3 z2 (by omega) le_rfl v hv⟩
  obtain ⟨b, hbc, hbp⟩ : ∃ v, CyclicAt ln (z2 + 1) v ∧ pastSurface second level v := by
    rcases e4 with h | h
    · exact h
    · exfalso
      have : ((z2 - start : ℤ) : ℝ) < k := by exact_mod_cast (by omega : z2 - start < (k : ℤ))
      linarith
  have hz2l : -(ln.length : ℤ) ≤ z2 := by omega
  obtain ⟨a', ha1, ha2⟩ := lineAt_some ln h0 z2 hz2l
  obtain ⟨b', hb1, hb2⟩ := lineAt_some ln h0 (z2 + 1) (by omega)
  rw [ha2.unique hac] at ha1
  rw [hb2.unique hbc] at hb1
  have hfs : findSurface ln second level start fuel = if b - a = 0 then none else some (z2 + (level - a) / (b - a)) := by
    unfold findSurface
    rw [d1, Option.bind_some, e1, Option.bind_some, ha1, Option.bind_some, hb1, Option.bind_some]
  have hside2 : if second then level < a ∧ b ≤ level else a ≤ level ∧ level < b := by
    unfold pastSurface at hap hbp
    cases second
    · simp only [Bool.false_eq_true, if_false] at hap hbp ⊢; exact ⟨not_lt.1 hap, hbp⟩
    · simp only [if_true] at hap hbp ⊢; exact ⟨not_le.1 hap, hbp⟩
  have hne : b - a ≠ 0 := by
    cases second
    · simp only [Bool.false_eq_true, if_false] at hside2; intro h; linarith [hside2.1, hside2.2]
    · simp only [if_true] at hside2; intro h; linarith [hside2.1, hside2.2]
  have hq : 0 ≤ (level - a) / (b - a) ∧ (level - a) / (b - a) ≤ 1 := by
    cases second
    · simp only [Bool.false_eq_true, if_false] at hside2
      have hp : 0 < b - a := by linarith [hside2.1, hside2.2]
      exact ⟨div_nonneg (by linarith [hside2.1]) hp.le, (div_le_one hp).2 (by linarith [hside2.2])⟩
    · simp only [if_true] at hside2
      have hp : b - a < 0 := by linarith [hside2.1, hside2.2]
      exact ⟨div_nonneg_of_nonpos (by linarith [hside2.1]) hp.le, (div_le_one_of_neg hp).2 (by linarith [hside2.2])⟩
  refine ⟨z2 + (level - a) / (b - a), z2, a, b, by rw [hfs, if_neg hne], hac, hbc, hside2, by linarith [hq.1], by linarith [hq.2], ?_⟩
  rw [add_sub_cancel_left, div_mul_cancel₀ _ hne]
  ring

/-- **C92 (position without a surface, negation).** If a line has the same value everywhere then, for every level, both searches end at two sites with this value and
the interpolation divides by zero. -/
theorem C92_surface_constant (m : ℕ) (hm : 0 < m) (c : ℝ) (second : Bool) (level : ℝ) (start : ℤ) (hs : 0 ≤ start) (fuel : ℕ) (hf : 2 * m + 2 ≤ fuel) :
    findSurface (List.replicate m c) second level start fuel = none ∧
    ∃ z1 z2, searchDown (List.replicate m c) (pastSurface second level) start fuel start = some z1 ∧
      searchUp (List.replicate m c) (pastSurface second level) start fuel z1 = some z2 ∧
      lineAt (List.replicate m c) z2 = some c ∧ lineAt (List.replicate m c) (z2 + 1) = some c := by
  have h0 : List.replicate m c ≠ [] := by simp; omega
  have hlen : (List.replicate m c).length = m := List.length_replicate
  have hm1 : (1 : ℝ) ≤ m := by exact_mod_cast hm
  obtain ⟨z1, d1, d2, d3, _, _⟩ := searchDown_spec (List.replicate m c) h0 (pastSurface second level) start hs fuel start le_rfl
    (by rw [sub_self, Int.cast_zero]; positivity) (by rw [hlen]; omega)
  rw [hlen] at d3
  have h3 : start - z1 < (m : ℤ) + 1 := by
    have h2 : ((start - z1 : ℤ) : ℝ) < ((m + 1 : ℤ) : ℝ) := by push_cast at d3 ⊢; linarith
    exact_mod_cast h2
  obtain ⟨z2, e1, e2, _, _⟩ := searchUp_spec (List.replicate m c) h0 (pastSurface second level) start hs fuel z1 (by rw [hlen]; exact d3)
    (by
      have : ((z1 - start : ℤ) : ℝ) ≤ 0 := by exact_mod_cast (by omega : z1 - start ≤ 0)
      have : (0 : ℝ) ≤ (List.replicate m c).length * 0.4 := by positivity
      linarith)
    (by rw [hlen]; omega)
  have hv : ∀ z, -(m : ℤ) ≤ z → lineAt (List.replicate m c) z = some c := by
    intro z hz
    obtain ⟨v, hv, k, hk, _⟩ := lineAt_some (List.replicate m c) h0 z (by rw [hlen]; exact hz)
    rw [List.getElem?_replicate] at hk
    split at hk
    · rw [hv]; exact hk.symm
    · cases hk
  have a1 := hv z2 (by omega)
  have a2 := hv (z2 + 1) (by omega)
  refine ⟨?_, z1, z2, d1, e1, a1, a2⟩
  unfold findSurface
  rw [d1, Option.bind_some, e1, Option.bind_some, a1, Option.bind_some, a2, Option.bind_some, sub_self, if_pos rfl]

/-- A line with values 0 and 1: the first surface, from the middle, is between the sites 3 and 4. -/
example : ∃ (h : ℝ) (z : ℤ) (a b : ℝ), findSurface [0, 0, 0, 0, 1, 1, 1, 1] false 0.5 4 20 = some h ∧ CyclicAt [0, 0, 0, 0, 1, 1, 1, 1] z a ∧
    CyclicAt [0, 0, 0, 0, 1, 1, 1, 1] (z + 1) b ∧ (if false then 0.5 < a ∧ b ≤ 0.5 else a ≤ 0.5 ∧ 0.5 < b) ∧ (z : ℝ) ≤ h ∧ h ≤ z + 1 ∧ a + (h - z) * (b - a) = 0.5 :=
  C92_surface [0, 0, 0, 0, 1, 1, 1, 1] false 0.5 4 (by norm_num) 20 (by norm_num) (by simp) 1 1 (by norm_num) one_pos (by norm_num) 0 1 ⟨3, rfl, by decide⟩
    ⟨5, rfl, by decide⟩ (by norm_num)

end Hila
