import Verif.Model.Coord
import Mathlib.Tactic.Ring
import Mathlib.Tactic.Linarith

/-! Helper lemmas about coordinates. -/

namespace Hila

open BigOperators

theorem pmod_eq_emod (a b : ℤ) (hb : 0 < b) : pmod a b = a % b := by
  unfold pmod
  have h := Int.emod_add_mul_ediv a b
  have h1 := Int.emod_nonneg a (by omega : b ≠ 0)
  have h2 := Int.emod_lt_of_pos a hb
  rw [Int.tmod_eq_emod]
  by_cases ha : 0 ≤ a ∨ b ∣ a
  · simp only [ha, if_true]; simp; omega
  · simp only [ha, if_false]
    have : (b.natAbs : ℤ) = b := by omega
    have h3 : a % b ≠ 0 := by
      intro h0; exact ha (Or.inr (Int.dvd_of_emod_eq_zero h0))
    rw [this, if_pos (by omega)]; omega

theorem oppDir_val {n : ℕ} (d : Dir n) : (oppDir d).val = 2 * n - 1 - d.val := rfl

theorem oppDir_oppDir {n : ℕ} (d : Dir n) : oppDir (oppDir d) = d := by
  apply Fin.ext; simp [oppDir]; have := d.isLt; omega

theorem oppDir_inj {n : ℕ} {d e : Dir n} : oppDir d = oppDir e ↔ d = e :=
  ⟨fun h => by rw [← oppDir_oppDir d, h, oppDir_oppDir], fun h => by rw [h]⟩

theorem oppDir_ne {n : ℕ} (d : Dir n) : oppDir d ≠ d := by
  intro h; have := congrArg Fin.val h; simp [oppDir] at this; have := d.isLt; omega

theorem eq_oppDir_comm {n : ℕ} {d e : Dir n} : d = oppDir e ↔ e = oppDir d :=
  ⟨fun h => by rw [h, oppDir_oppDir], fun h => by rw [h, oppDir_oppDir]⟩

theorem axis_oppDir {n : ℕ} (d : Dir n) : axis (oppDir d) = axis d := by
  have := d.isLt
  apply Fin.ext; unfold axis oppDir; simp only
  split <;> split <;> simp <;> omega

theorem isUp_oppDir {n : ℕ} (d : Dir n) : isUp (oppDir d) = !isUp d := by
  have := d.isLt
  unfold isUp oppDir; simp only
  by_cases h : d.val < n
  · simp [h]; omega
  · simp [h]; omega

theorem axis_upDir {n : ℕ} (i : Fin n) : axis (upDir i) = i := by
  apply Fin.ext; simp [axis, upDir]

theorem isUp_upDir {n : ℕ} (i : Fin n) : isUp (upDir i) = true := by
  simp [isUp, upDir]

theorem isUp_eq_upDir {n : ℕ} {d : Dir n} (h : isUp d = true) : d = upDir (axis d) := by
  simp only [isUp, decide_eq_true_eq] at h
  apply Fin.ext; simp [upDir, axis, h]

theorem isDown_eq_upDir {n : ℕ} {d : Dir n} (h : isUp d = false) : d = oppDir (upDir (axis d)) := by
  simp only [isUp, decide_eq_false_iff_not] at h
  have := d.isLt
  apply Fin.ext; simp [upDir, axis, h, oppDir]; omega

theorem upDir_ne_opp {n : ℕ} (i j : Fin n) : upDir i ≠ oppDir (upDir j) := by
  intro h
  have := congrArg isUp h
  rw [isUp_oppDir, isUp_upDir, isUp_upDir] at this
  simp at this

theorem upDir_inj {n : ℕ} {i j : Fin n} : upDir i = upDir j ↔ i = j :=
  ⟨fun h => by have := congrArg axis h; rwa [axis_upDir, axis_upDir] at this, fun h => by rw [h]⟩

/-- Sign of a direction. -/
theorem ofDir_apply {n : ℕ} (dir : Dir n) (d : Fin n) :
    CV.ofDir dir d = if d = axis dir then (if isUp dir then 1 else -1) else 0 := by
  unfold CV.ofDir dirDot
  cases h : isUp dir
  · rw [isDown_eq_upDir h, axis_oppDir, axis_upDir, oppDir_oppDir]
    simp [upDir_ne_opp, upDir_inj]
  · rw [isUp_eq_upDir h, axis_upDir]
    simp [upDir_ne_opp, upDir_inj]

theorem addDir_eq {n : ℕ} (c : CV n) (dir : Dir n) : c.addDir dir = c + CV.ofDir dir := by
  funext d
  simp only [CV.addDir, Pi.add_apply, ofDir_apply]
  cases h : isUp dir <;> by_cases hd : d = axis dir <;> (simp [hd, Function.update]; try rfl)

theorem subDir_eq {n : ℕ} (c : CV n) (dir : Dir n) : c.subDir dir = c - CV.ofDir dir := by
  funext d
  simp only [CV.subDir, Pi.sub_apply, ofDir_apply]
  cases h : isUp dir <;> by_cases hd : d = axis dir <;> simp [hd, Function.update]

theorem ofDir_oppDir {n : ℕ} (d : Dir n) : CV.ofDir (oppDir d) = - CV.ofDir d := by
  funext i
  simp only [Pi.neg_apply, ofDir_apply, axis_oppDir, isUp_oppDir]
  cases isUp d <;> by_cases h : i = axis d <;> simp [h]

theorem dirDot_comm {n : ℕ} (d e : Dir n) : dirDot d e = dirDot e d := by
  unfold dirDot
  by_cases h : d = e
  · simp [h]
  · by_cases h2 : d = oppDir e
    · have h3 : e = oppDir d := eq_oppDir_comm.1 h2
      simp [h, Ne.symm h, ← h2, ← h3]
    · have h3 : ¬ e = oppDir d := fun h => h2 (eq_oppDir_comm.2 h)
      simp [h, Ne.symm h, h2, h3]

theorem sum_ofDir {n : ℕ} (d : Dir n) : ∑ i, CV.ofDir d i = if isUp d then 1 else -1 := by
  simp only [ofDir_apply]
  rw [Finset.sum_ite_eq' Finset.univ (axis d) (fun _ => if isUp d then (1 : ℤ) else -1)]
  simp

theorem parity_even_iff {n : ℕ} (c : CV n) : c.parity = .even ↔ 2 ∣ ∑ d, c d := by
  unfold CV.parity
  rw [Int.dvd_iff_tmod_eq_zero]
  split <;> simp_all

theorem parity_odd_iff {n : ℕ} (c : CV n) : c.parity = .odd ↔ ¬ 2 ∣ ∑ d, c d := by
  unfold CV.parity
  rw [Int.dvd_iff_tmod_eq_zero]
  split <;> simp_all

theorem parity_cases {n : ℕ} (c : CV n) : c.parity = .even ∨ c.parity = .odd := by
  unfold CV.parity; split <;> simp

theorem parity_eq_iff {n : ℕ} (c e : CV n) :
    c.parity = e.parity ↔ 2 ∣ (∑ d, c d) - ∑ d, e d := by
  rcases parity_cases c with h | h <;> rcases parity_cases e with h' | h' <;>
    rw [h, h'] <;> simp only [reduceCtorEq, true_iff, false_iff] <;>
    (try rw [parity_even_iff] at h) <;> (try rw [parity_odd_iff] at h) <;>
    (try rw [parity_even_iff] at h') <;> (try rw [parity_odd_iff] at h') <;> omega

end Hila
