import Verif.Model.Gather
import Verif.Lemmas.Layout
import Mathlib.Tactic.Tauto

/-! Closed forms of the two passes of `create_std_gathers`. -/

namespace Hila

open BigOperators

section Closed
variable {n : ℕ} (lay : Layout n) (r : ℕ) (d : Dir n)

/-- The neighbour of slot `i` is off-node. -/
def Off (i : ℕ) : Prop :=
  (lay.nodeinfo r).isOnNode (lay.neighbour ((lay.nodeinfo r).coord i) d) = false

/-- Slot `i` is an even site. -/
def Ev (i : ℕ) : Prop := ((lay.nodeinfo r).coord i).parity = .even

/-- The neighbour of slot `i` is an even site. -/
def NEv (i : ℕ) : Prop := (lay.neighbour ((lay.nodeinfo r).coord i) d).parity = .even

instance : DecidablePred (Off lay r d) := fun i => by unfold Off; infer_instance
instance : DecidablePred (Ev lay r) := fun i => by unfold Ev; infer_instance
instance : DecidablePred (NEv lay r d) := fun i => by unfold NEv; infer_instance

abbrev cFE (m : ℕ) := Nat.count (fun i => Off lay r d i ∧ Ev lay r i) m
abbrev cFO (m : ℕ) := Nat.count (fun i => Off lay r d i ∧ ¬ Ev lay r i) m
abbrev cTE (m : ℕ) := Nat.count (fun i => Off lay r d i ∧ NEv lay r d i) m
abbrev cTO (m : ℕ) := Nat.count (fun i => Off lay r d i ∧ ¬ NEv lay r d i) m

theorem pass1_closed (m : ℕ) :
    let s := (List.range m).foldl (pass1Step lay r d) ⟨fun _ => 0, r, 0, 0, 0, 0⟩
    s.fromEven = cFE lay r d m ∧ s.fromOdd = cFO lay r d m ∧
    s.toEven = cTE lay r d m ∧ s.toOdd = cTO lay r d m ∧
    (∀ j, j < m → s.neighb j = if Off lay r d j then (lay.nodeinfo r).volume
      else (lay.nodeinfo r).siteIndex (lay.neighbour ((lay.nodeinfo r).coord j) d)) ∧
    ((∀ j, j < m → ¬ Off lay r d j) → s.rank = r) ∧
    (s.rank = r ∨ ∃ j, j < m ∧ Off lay r d j ∧
      s.rank = lay.nodeRank (lay.neighbour ((lay.nodeinfo r).coord j) d)) ∧
    ((∃ j, j < m ∧ Off lay r d j) → (∀ j, j < m → Off lay r d j →
      lay.nodeRank (lay.neighbour ((lay.nodeinfo r).coord j) d) ≠ r) → s.rank ≠ r) := by
  induction m with
  | zero => simp
  | succ m ih =>
    intro s
    set t := (List.range m).foldl (pass1Step lay r d) ⟨fun _ => 0, r, 0, 0, 0, 0⟩ with ht
    have hs : s = pass1Step lay r d t m := by
      show (List.range (m + 1)).foldl _ _ = _
      rw [List.range_succ, List.foldl_append]; rfl
    obtain ⟨h1, h2, h3, h4, h5, h6, h7, h8⟩ := ih
    unfold cFE cFO cTE cTO
    rw [Nat.count_succ, Nat.count_succ, Nat.count_succ, Nat.count_succ]
    by_cases hoff : Off lay r d m
    · have hon : (lay.nodeinfo r).isOnNode
          (lay.neighbour ((lay.nodeinfo r).coord m) d) = false := hoff
      have hs' : s = { neighb := Function.update t.neighb m (lay.nodeinfo r).volume
                       rank := if t.rank = r then lay.nodeRank
                          (lay.neighbour ((lay.nodeinfo r).coord m) d) else t.rank
                       fromEven := if Ev lay r m then t.fromEven + 1 else t.fromEven
                       fromOdd := if Ev lay r m then t.fromOdd else t.fromOdd + 1
                       toEven := if NEv lay r d m then t.toEven + 1 else t.toEven
                       toOdd := if NEv lay r d m then t.toOdd else t.toOdd + 1 } := by
        rw [hs]; unfold pass1Step; simp only [hon]; rfl
      rw [hs']
      refine ⟨?_, ?_, ?_, ?_, ?_, ?_, ?_, ?_⟩
      · simp only; by_cases he : Ev lay r m <;> simp [hoff, he, h1]
      · simp only; by_cases he : Ev lay r m <;> simp [hoff, he, h2]
      · simp only; by_cases he : NEv lay r d m <;> simp [hoff, he, h3]
      · simp only; by_cases he : NEv lay r d m <;> simp [hoff, he, h4]
      · intro j hj
        by_cases hjm : j = m
        · subst hjm; simp [hoff]
        · simp only [Function.update_of_ne hjm]; exact h5 j (by omega)
      · intro hall; exact absurd hoff (hall m (by omega))
      · simp only
        by_cases hr : t.rank = r
        · right; exact ⟨m, by omega, hoff, by simp [hr]⟩
        · rcases h7 with h7 | ⟨j, hj, ho, he⟩
          · exact absurd h7 hr
          · right; exact ⟨j, by omega, ho, by simp only [if_neg hr]; exact he⟩
      · intro _ hne
        simp only
        by_cases hr : t.rank = r
        · simp only [if_pos hr]; exact hne m (by omega) hoff
        · simp only [if_neg hr]; exact hr
    · have hon : (lay.nodeinfo r).isOnNode
          (lay.neighbour ((lay.nodeinfo r).coord m) d) = true := by
        unfold Off at hoff; simpa using hoff
      have hs' : s = { t with
          neighb := (Function.update t.neighb m
            ((lay.nodeinfo r).siteIndex (lay.neighbour ((lay.nodeinfo r).coord m) d))) } := by
        rw [hs]; unfold pass1Step; simp only [hon]; rfl
      rw [hs']
      refine ⟨by simp [hoff, h1], by simp [hoff, h2], by simp [hoff, h3], by simp [hoff, h4],
        ?_, ?_, ?_, ?_⟩
      · intro j hj
        by_cases hjm : j = m
        · subst hjm; simp [hoff]
        · simp only [Function.update_of_ne hjm]; exact h5 j (by omega)
      · intro hall; exact h6 fun j hj => hall j (by omega)
      · rcases h7 with h7 | ⟨j, hj, ho, he⟩
        · left; exact h7
        · right; exact ⟨j, by omega, ho, he⟩
      · rintro ⟨j, hj, hoj⟩ hne
        have hjm : j ≠ m := by rintro rfl; exact hoff hoj
        exact h8 ⟨j, by omega, hoj⟩ fun j hj => hne j (by omega)

/-- Invariant of the second pass. -/
theorem pass2_closed (off FE TE : ℕ) (nb0 : ℕ → ℕ) (vol : ℕ) (hvol : vol = (lay.nodeinfo r).volume)
    (hnb : ∀ j, j < vol → (nb0 j = vol ↔ Off lay r d j)) (hTE : TE = cTE lay r d vol)
    (m : ℕ) (hm : m ≤ vol) :
    let s := (List.range m).foldl (pass2Step lay r d off FE TE) ⟨nb0, fun _ => 0, 0, 0, 0, 0⟩
    s.fromEven = cFE lay r d m ∧ s.fromOdd = cFO lay r d m ∧
    s.toEven = cTE lay r d m ∧ s.toOdd = cTO lay r d m ∧
    (∀ j, s.neighb j = if j < m ∧ Off lay r d j then
        (if Ev lay r j then off + cFE lay r d j else off + FE + cFO lay r d j) else nb0 j) ∧
    (∀ j, j < m → Off lay r d j →
      s.sitelist (if NEv lay r d j then cTE lay r d j else cTO lay r d j + TE) = j) := by
  induction m with
  | zero => simp
  | succ m ih =>
    intro s
    obtain ⟨h1, h2, h3, h4, h5, h6⟩ := ih (by omega)
    set t := (List.range m).foldl (pass2Step lay r d off FE TE) ⟨nb0, fun _ => 0, 0, 0, 0, 0⟩ with ht
    have hs : s = pass2Step lay r d off FE TE t m := by
      show (List.range (m + 1)).foldl _ _ = _
      rw [List.range_succ, List.foldl_append]; rfl
    have htm : t.neighb m = nb0 m := by rw [h5 m]; simp
    have hcond : t.neighb m = (lay.nodeinfo r).volume ↔ Off lay r d m := by
      rw [htm, ← hvol]; exact hnb m (by omega)
    unfold cFE cFO cTE cTO
    rw [Nat.count_succ, Nat.count_succ, Nat.count_succ, Nat.count_succ]
    by_cases hoff : Off lay r d m
    · have hs' : s = { neighb := Function.update t.neighb m
                        (if Ev lay r m then off + t.fromEven else off + FE + t.fromOdd)
                       fromEven := if Ev lay r m then t.fromEven + 1 else t.fromEven
                       fromOdd := if Ev lay r m then t.fromOdd else t.fromOdd + 1
                       sitelist := Function.update t.sitelist
                        (if NEv lay r d m then t.toEven else t.toOdd + TE) m
                       toEven := if NEv lay r d m then t.toEven + 1 else t.toEven
                       toOdd := if NEv lay r d m then t.toOdd else t.toOdd + 1 } := by
        rw [hs]; unfold pass2Step; rw [if_pos (hcond.2 hoff)]; rfl
      rw [hs']
      refine ⟨?_, ?_, ?_, ?_, ?_, ?_⟩
      · simp only; by_cases he : Ev lay r m <;> simp [hoff, he, h1]
      · simp only; by_cases he : Ev lay r m <;> simp [hoff, he, h2]
      · simp only; by_cases he : NEv lay r d m <;> simp [hoff, he, h3]
      · simp only; by_cases he : NEv lay r d m <;> simp [hoff, he, h4]
      · intro j
        by_cases hjm : j = m
        · subst hjm; simp [hoff, h1, h2]
        · simp only [Function.update_of_ne hjm]
          rw [h5 j]
          by_cases hj : j < m
          · simp [hj, show j < m + 1 by omega]
          · simp [hj, show ¬ j < m + 1 by omega]
      · intro j hj hoj
        by_cases hjm : j = m
        · subst hjm; simp [h3, h4]
        · have hjlt : j < m := by omega
          rw [← h6 j hjlt hoj]
          rw [h6 j hjlt hoj]
          simp only [h3, h4]
          -- positions differ
          have hcnt : cTE lay r d m ≤ TE := by
            rw [hTE]; exact Nat.count_monotone _ (by omega)
          have hne : (if NEv lay r d j then cTE lay r d j else cTO lay r d j + TE) ≠
              (if NEv lay r d m then cTE lay r d m else cTO lay r d m + TE) := by
            by_cases hj1 : NEv lay r d j
            · have hlt : cTE lay r d j < cTE lay r d m :=
                Nat.count_strict_mono (p := fun i => Off lay r d i ∧ NEv lay r d i) ⟨hoj, hj1⟩ hjlt
              by_cases hm1 : NEv lay r d m
              · simp only [if_pos hj1, if_pos hm1]; omega
              · simp only [if_pos hj1, if_neg hm1]; omega
            · have hlt : cTO lay r d j < cTO lay r d m :=
                Nat.count_strict_mono (p := fun i => Off lay r d i ∧ ¬ NEv lay r d i) ⟨hoj, hj1⟩ hjlt
              by_cases hm1 : NEv lay r d m
              · have hlt2 : cTE lay r d m < cTE lay r d vol :=
                  Nat.count_strict_mono (p := fun i => Off lay r d i ∧ NEv lay r d i)
                    ⟨hoff, hm1⟩ (by omega)
                simp only [if_neg hj1, if_pos hm1]; omega
              · simp only [if_neg hj1, if_neg hm1]; omega
          rw [Function.update_of_ne hne]
          exact h6 j hjlt hoj
    · have hs' : s = t := by
        rw [hs]; unfold pass2Step; rw [if_neg (fun h => hoff (hcond.1 h))]
      rw [hs']
      refine ⟨by simp [hoff, h1], by simp [hoff, h2], by simp [hoff, h3], by simp [hoff, h4], ?_, ?_⟩
      · intro j
        rw [h5 j]
        by_cases hjm : j = m
        · subst hjm; simp [hoff]
        · by_cases hj : j < m
          · simp [hj, show j < m + 1 by omega]
          · simp [hj, show ¬ j < m + 1 by omega]
      · intro j hj hoj
        have hjm : j ≠ m := by rintro rfl; exact hoff hoj
        exact h6 j (by omega) hoj

end Closed

end Hila
