import Verif.Model.LinAlg
import Mathlib.LinearAlgebra.Matrix.Block
import Mathlib.LinearAlgebra.Matrix.NonsingularInverse
import Mathlib.Tactic.Linarith
import Mathlib.Tactic.Ring
import Mathlib.Tactic.FieldSimp
import Mathlib.Tactic.LinearCombination

/-! # Loops, partial sums and LU factors (for C51, C52) -/

namespace Hila

set_option linter.unusedSectionVars false

variable {𝕜 : Type} [RCLike 𝕜] {n : ℕ}

/-! ### Loops -/

theorem forLoop_run {S : Type} {hi : ℕ} (P : ℕ → S → Prop) (f : Fin n → S → Option S) (hhi : hi ≤ n)
    (step : ∀ (i : Fin n) (s : S), i.val < hi → P i.val s → ∃ s', f i s = some s' ∧ P (i.val + 1) s') (lo : ℕ) (s : S)
    (hlo : lo ≤ hi) (h0 : P lo s) : ∃ s', forLoop n hi f lo s = some s' ∧ P hi s' := by
  rw [forLoop]
  by_cases h : lo < hi
  · rw [dif_pos ⟨h, by omega⟩]
    obtain ⟨s', h1, h2⟩ := step ⟨lo, by omega⟩ s h h0
    rw [h1, Option.bind_some]
    exact forLoop_run P f hhi step (lo + 1) s' (by omega) h2
  · rw [dif_neg (by omega)]
    have : lo = hi := by omega
    subst this
    exact ⟨s, rfl, h0⟩
termination_by hi - lo

/-- The same rule when the invariant starts at `lo`. -/
theorem forLoop_run' {S : Type} {hi : ℕ} (P : ℕ → S → Prop) (f : Fin n → S → Option S) (hhi : hi ≤ n) (lo : ℕ)
    (step : ∀ (i : Fin n) (s : S), lo ≤ i.val → i.val < hi → P i.val s → ∃ s', f i s = some s' ∧ P (i.val + 1) s') (s : S)
    (hlo : lo ≤ hi) (h0 : P lo s) : ∃ s', forLoop n hi f lo s = some s' ∧ P hi s' := by
  have := forLoop_run (fun t s => lo ≤ t ∧ P t s) f hhi (fun i s hi hP => by
    obtain ⟨s', h1, h2⟩ := step i s hP.1 hi hP.2
    exact ⟨s', h1, by have := hP.1; omega, h2⟩) lo s hlo ⟨le_rfl, h0⟩
  obtain ⟨s', h1, h2⟩ := this
  exact ⟨s', h1, h2.2⟩

theorem forDown_run {S : Type} (P : ℕ → S → Prop) (f : Fin n → S → Option S)
    (step : ∀ (i : Fin n) (s : S), P (i.val + 1) s → ∃ s', f i s = some s' ∧ P i.val s') (m : ℕ) (hm : m ≤ n) (s : S)
    (h0 : P m s) : ∃ s', forDown n f m s = some s' ∧ P 0 s' := by
  induction m generalizing s with
  | zero => exact ⟨s, rfl, h0⟩
  | succ m ih =>
    rw [forDown, dif_pos (by omega)]
    obtain ⟨s', h1, h2⟩ := step ⟨m, by omega⟩ s h0
    rw [h1, Option.bind_some]
    exact ih (by omega) s' h2

/-! ### Partial sums -/

/-- Sum over the indices below `t`. -/
def psum {M : Type} [AddCommMonoid M] (f : Fin n → M) (t : ℕ) : M := ∑ i ∈ Finset.univ.filter (fun i : Fin n => i.val < t), f i

theorem psum_zero {M : Type} [AddCommMonoid M] (f : Fin n → M) : psum f 0 = 0 := by
  unfold psum; rw [Finset.filter_false_of_mem (by simp), Finset.sum_empty]

theorem psum_succ {M : Type} [AddCommMonoid M] (f : Fin n → M) (i : Fin n) : psum f (i.val + 1) = psum f i.val + f i := by
  unfold psum
  have : Finset.univ.filter (fun k : Fin n => k.val < i.val + 1) = insert i (Finset.univ.filter fun k : Fin n => k.val < i.val) := by
    ext k
    simp only [Finset.mem_filter, Finset.mem_univ, true_and, Finset.mem_insert]
    constructor
    · intro h
      by_cases hk : k = i
      · exact Or.inl hk
      · exact Or.inr (lt_of_le_of_ne (by omega) fun h' => hk (Fin.ext h'))
    · rintro (rfl | h) <;> omega
  rw [this, Finset.sum_insert (by simp), add_comm]

theorem psum_all {M : Type} [AddCommMonoid M] (f : Fin n → M) : psum f n = ∑ i, f i := by
  unfold psum; rw [Finset.filter_true_of_mem (fun i _ => i.isLt)]

theorem psum_congr {M : Type} [AddCommMonoid M] {f g : Fin n → M} {t : ℕ} (h : ∀ k : Fin n, k.val < t → f k = g k) :
    psum f t = psum g t := by
  unfold psum
  apply Finset.sum_congr rfl
  intro k hk
  exact h k (by simpa using hk)

theorem psum_ite {M : Type} [AddCommMonoid M] (f : Fin n → M) (t : ℕ) : psum f t = ∑ i, if i.val < t then f i else 0 := by
  unfold psum; rw [Finset.sum_filter]

/-! ### Elements -/

theorem setE_apply (a : Matrix (Fin n) (Fin n) 𝕜) (i j p q : Fin n) (v : 𝕜) :
    setE a i j v p q = if p = i ∧ q = j then v else a p q := by
  unfold setE
  by_cases hp : p = i
  · subst hp
    rw [Matrix.updateRow_self]
    by_cases hq : q = j
    · subst hq; rw [Function.update_self, if_pos ⟨rfl, rfl⟩]
    · rw [Function.update_of_ne hq, if_neg (fun h => hq h.2)]
  · rw [Matrix.updateRow_ne hp, if_neg (fun h => hp h.1)]

theorem setE_same (a : Matrix (Fin n) (Fin n) 𝕜) (i j : Fin n) (v : 𝕜) : setE a i j v i j = v := by
  rw [setE_apply, if_pos ⟨rfl, rfl⟩]

theorem setE_ne (a : Matrix (Fin n) (Fin n) 𝕜) (i j p q : Fin n) (v : 𝕜) (h : ¬ (p = i ∧ q = j)) : setE a i j v p q = a p q := by
  rw [setE_apply, if_neg h]

theorem div?_some {x y : 𝕜} (h : y ≠ 0) : div? x y = some (x / y) := by
  unfold div?; rw [if_neg h]

/-! ### Triangular factors -/

/-- The factor L kept below the diagonal. -/
def lowM (a : Matrix (Fin n) (Fin n) 𝕜) : Matrix (Fin n) (Fin n) 𝕜 :=
  Matrix.of fun i k => if k < i then a i k else if k = i then 1 else 0

/-- The factor U kept on and above the diagonal. -/
def upM (a : Matrix (Fin n) (Fin n) 𝕜) : Matrix (Fin n) (Fin n) 𝕜 :=
  Matrix.of fun k c => if k ≤ c then a k c else 0

theorem det_lowM (a : Matrix (Fin n) (Fin n) 𝕜) : (lowM a).det = 1 := by
  rw [Matrix.det_of_lowerTriangular]
  · apply Finset.prod_eq_one
    intro i _
    simp [lowM]
  · intro i j h
    have h' : i < j := h
    simp only [lowM, Matrix.of_apply]
    rw [if_neg h'.not_gt, if_neg h'.ne']

theorem det_upM (a : Matrix (Fin n) (Fin n) 𝕜) : (upM a).det = ∏ i, a i i := by
  rw [Matrix.det_of_upperTriangular]
  · apply Finset.prod_congr rfl
    intro i _
    simp [upM]
  · intro i j h
    have h' : j < i := h
    simp only [upM, Matrix.of_apply]
    rw [if_neg h'.not_ge]

/-- Element of the product of the factors. -/
theorem low_mul_up (a : Matrix (Fin n) (Fin n) 𝕜) (i c : Fin n) :
    (lowM a * upM a) i c = psum (fun k => a i k * a k c) (min i.val c.val) + if i ≤ c then a i c else a i c * a c c := by
  rw [Matrix.mul_apply, psum_ite]
  have h : ∀ k, lowM a i k * upM a k c = (if k.val < min i.val c.val then a i k * a k c else 0) +
      if k = (if i ≤ c then i else c) then (if i ≤ c then a i c else a i c * a c c) else 0 := by
    intro k
    simp only [lowM, upM, Matrix.of_apply]
    rcases lt_trichotomy k i with hk | hk | hk
    · rw [if_pos hk]
      have hkv : k.val < i.val := hk
      rcases lt_trichotomy k c with hc | hc | hc
      · have hcv : k.val < c.val := hc
        rw [if_pos hc.le, if_pos (lt_min hkv hcv), if_neg, add_zero]
        intro e; split_ifs at e <;> subst e <;> exact absurd rfl (by first | exact hk.ne | exact hc.ne)
      · subst hc
        rw [if_pos le_rfl, if_neg (by simp), zero_add, if_neg hk.not_ge, if_pos rfl, if_neg hk.not_ge]
      · have hcv : c.val < k.val := hc
        rw [if_neg hc.not_ge, mul_zero, if_neg (by simp; omega), zero_add, if_neg]
        have : ¬ i ≤ c := (hc.trans hk).not_ge
        rw [if_neg this]
        exact hc.ne'
    · subst hk
      rw [if_neg (lt_irrefl _), if_pos rfl, one_mul, if_neg (show ¬ k.val < min k.val c.val from by simp), zero_add]
      by_cases hc : k ≤ c
      · rw [if_pos hc, if_pos hc, if_pos rfl, if_pos hc]
      · rw [if_neg hc, if_neg hc, if_neg]
        exact fun e => hc (le_of_eq e)
    · have hkv : i.val < k.val := hk
      rw [if_neg hk.not_gt, if_neg hk.ne', zero_mul, if_neg (by simp; omega), zero_add, if_neg]
      intro e
      split_ifs at e with hic
      · exact hk.ne' e
      · subst e; exact hic hk.le
  simp only [h]
  rw [Finset.sum_add_distrib, Finset.sum_ite_eq']
  simp

/-- A matrix whose first `j + 1` columns are combinations of `j` columns is singular. -/
theorem det_zero_of_factor (A : Matrix (Fin n) (Fin n) 𝕜) (j : Fin n) (l w : Fin n → Fin n → 𝕜)
    (h : ∀ i c, c ≤ j → A i c = psum (fun k => l i k * w k c) j.val) : A.det = 0 := by
  have hA : A = (Matrix.of fun i k => if k < j then l i k else if k = j then 0 else A i k) *
      (Matrix.of fun k c => if c ≤ j then (if k < j then w k c else 0) else if k = c then 1 else 0) := by
    ext i c
    rw [Matrix.mul_apply]
    simp only [Matrix.of_apply]
    by_cases hc : c ≤ j
    · rw [h i c hc, psum_ite]
      apply Finset.sum_congr rfl
      intro k _
      rw [if_pos hc]
      by_cases hk : k < j
      · rw [if_pos (show k.val < j.val from hk), if_pos hk, if_pos hk]
      · rw [if_neg (show ¬ k.val < j.val from hk), if_neg hk, if_neg hk, mul_zero]
    · rw [Finset.sum_eq_single c]
      · rw [if_neg hc, if_pos rfl, mul_one, if_neg (fun h => hc h.le), if_neg (fun h => hc h.le)]
      · intro k _ hk
        rw [if_neg hc, if_neg hk, mul_zero]
      · simp
  rw [hA, Matrix.det_mul]
  have : (Matrix.of fun i k => if k < j then l i k else if k = j then 0 else A i k).det = 0 := by
    apply Matrix.det_eq_zero_of_column_eq_zero j
    intro i
    simp
  rw [this, zero_mul]

theorem swapRows_apply (a : Matrix (Fin n) (Fin n) 𝕜) (p q i j : Fin n) : swapRows a p q i j = a (Equiv.swap p q i) j := rfl

theorem det_swapRows (a : Matrix (Fin n) (Fin n) 𝕜) {p q : Fin n} (h : p ≠ q) : (swapRows a p q).det = -a.det := by
  have : swapRows a p q = a.submatrix (Equiv.swap p q) id := rfl
  rw [this, Matrix.det_permute, Equiv.Perm.sign_swap h]
  simp

theorem swap_low {p q j i : Fin n} (hp : j ≤ p) (hq : j ≤ q) : (i < j → Equiv.swap p q i = i) ∧ (j ≤ i → j ≤ Equiv.swap p q i) := by
  constructor
  · intro h
    exact Equiv.swap_apply_of_ne_of_ne (fun e => absurd (e ▸ hp) h.not_ge) (fun e => absurd (e ▸ hq) h.not_ge)
  · intro h
    rw [Equiv.swap_apply_def]
    split_ifs
    · exact hq
    · exact hp
    · exact h

end Hila
