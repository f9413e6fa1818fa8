import Verif.Model.MRE
import Mathlib.Algebra.BigOperators.Ring.Finset
import Mathlib.Algebra.Order.Ring.Rat
import Mathlib.Tactic.FieldSimp
import Mathlib.Tactic.Ring
import Mathlib.Tactic.Linarith
import Mathlib.Tactic.NormNum
import Mathlib.Tactic.Module
import Mathlib.Tactic.LinearCombination

/-!
# C46: initial guesses from previous solutions
-/

namespace Hila

/-! ### The list of previous solutions -/

/-- State of the shift after `j` passes. -/
theorem shift_loop {V : Type} (a : V) (rest : List V) (j : ℕ) (hj : j ≤ rest.length) :
    (List.range' 1 j).foldl copyPrevious (a :: rest) = a :: (List.replicate j a ++ rest.drop j) := by
  induction j with
  | zero => simp
  | succ j ih =>
    rw [List.range'_concat, List.foldl_append, ih (by omega)]
    simp only [List.foldl_cons, List.foldl_nil, Nat.one_mul]
    have hget : (a :: (List.replicate j a ++ rest.drop j))[1 + j - 1]? = some a := by
      have : 1 + j - 1 = j := by omega
      rw [this]
      cases j with
      | zero => rfl
      | succ j =>
        rw [List.getElem?_cons_succ, List.getElem?_append_left (by simp), List.getElem?_replicate]
        simp
    unfold copyPrevious
    rw [hget]
    dsimp only
    rw [show 1 + j = j + 1 by omega, List.set_cons_succ, List.set_append_right _ _ (by simp)]
    simp only [List.length_replicate, Nat.sub_self]
    rw [List.drop_eq_getElem_cons (by omega), List.set_cons_zero, List.replicate_succ']
    simp

/-- What saving a solution does: the new one comes first and all other entries become the previously newest
solution. -/
theorem C46_save_overwrites {V : Type} (a psi : V) (rest : List V) :
    saveNewSolution (a :: rest) psi = psi :: List.replicate rest.length a := by
  unfold saveNewSolution
  rw [if_pos (by simp)]
  have e : (a :: rest).length - 1 = rest.length := by simp
  rw [e, shift_loop a rest rest.length (le_refl _)]
  simp

/-- **C46 fails: old solutions are lost.** After saving three solutions in a list of three, only the last
two are there (the older of them twice). -/
theorem C46_history_lost {V : Type} (x y z a b c : V) :
    saveNewSolution (saveNewSolution (saveNewSolution [x, y, z] a) b) c = [c, b, b] := by
  rw [C46_save_overwrites]
  simp only [List.length_cons, List.length_nil, List.replicate]
  rw [C46_save_overwrites]
  simp only [List.length_cons, List.length_nil, List.replicate]
  rw [C46_save_overwrites]
  rfl

/-- **C46 (two solutions).** A list of two keeps the last two solutions, newest first; missing (`_partial`):
longer lists, see `C46_history_lost`. -/
theorem C46_history_partial {V : Type} (x y a : V) : saveNewSolution [x, y] a = [a, x] :=
  C46_save_overwrites x a [y]

/-! ### The small linear system -/

section field

variable {K V : Type} [Field K] [AddCommGroup V] [Module K V]

/-- A vector solves the system. -/
def Solves {n : ℕ} (s : (Fin n → Fin n → K) × (Fin n → K)) (x : Fin n → K) : Prop :=
  ∀ k, ∑ j, s.1 k j * x j = s.2 k

theorem eliminate_solves {n : ℕ} (big : K → Bool) (i : Fin n) (s : (Fin n → Fin n → K) × (Fin n → K))
    (hb : big (s.1 i i * s.1 i i) = true) (h0 : s.1 i i ≠ 0) (x : Fin n → K) :
    Solves (eliminate big i s) x ↔ Solves s x := by
  have row : ∀ k, (eliminate big i s).1 k = fun j => if k = i then s.1 i j * (1 / s.1 i i)
      else s.1 k j - s.1 k i * (s.1 i j * (1 / s.1 i i)) := by
    intro k; unfold eliminate; rw [if_pos hb]
  have rhs : ∀ k, (eliminate big i s).2 k = if k = i then s.2 i * (1 / s.1 i i)
      else s.2 k - s.1 k i * (s.2 i * (1 / s.1 i i)) := by
    intro k; unfold eliminate; rw [if_pos hb]
  have hsumi : ∑ j, s.1 i j * (1 / s.1 i i) * x j = (∑ j, s.1 i j * x j) * (1 / s.1 i i) := by
    rw [Finset.sum_mul]; exact Finset.sum_congr rfl fun j _ => by ring
  have hsumk : ∀ k, ∑ j, (s.1 k j - s.1 k i * (s.1 i j * (1 / s.1 i i))) * x j =
      (∑ j, s.1 k j * x j) - s.1 k i * ((∑ j, s.1 i j * x j) * (1 / s.1 i i)) := by
    intro k
    rw [Finset.sum_mul, Finset.mul_sum, ← Finset.sum_sub_distrib]
    exact Finset.sum_congr rfl fun j _ => by ring
  constructor
  · intro h
    have hi : ∑ j, s.1 i j * x j = s.2 i := by
      have := h i
      simp only [row, rhs, if_true] at this
      rw [hsumi] at this
      exact mul_right_cancel₀ (one_div_ne_zero h0) this
    intro k
    by_cases hk : k = i
    · rw [hk]; exact hi
    · have := h k
      simp only [row, rhs, if_neg hk] at this
      rw [hsumk, hi] at this
      linear_combination this
  · intro h k
    by_cases hk : k = i
    · subst hk
      simp only [row, rhs, if_true]
      rw [hsumi, h k]
    · simp only [row, rhs, if_neg hk]
      rw [hsumk, h k, h i]

/-- Columns in the set are those of the unit matrix. -/
def UnitColumns {n : ℕ} (M : Fin n → Fin n → K) (c : List (Fin n)) : Prop :=
  ∀ j ∈ c, ∀ k, M k j = if k = j then 1 else 0

theorem eliminate_columns {n : ℕ} (big : K → Bool) (i : Fin n) (s : (Fin n → Fin n → K) × (Fin n → K))
    (hb : big (s.1 i i * s.1 i i) = true) (h0 : s.1 i i ≠ 0) (c : List (Fin n)) (hc : UnitColumns s.1 c)
    (hi : i ∉ c) : UnitColumns (eliminate big i s).1 (c ++ [i]) := by
  intro j hj k
  have row : (eliminate big i s).1 k j = if k = i then s.1 i j * (1 / s.1 i i)
      else s.1 k j - s.1 k i * (s.1 i j * (1 / s.1 i i)) := by
    unfold eliminate; rw [if_pos hb]
  rw [row]
  rcases List.mem_append.1 hj with hj | hj
  · have hij : i ≠ j := fun h => hi (h ▸ hj)
    rw [hc j hj i, if_neg hij, hc j hj k]
    by_cases hk : k = i
    · subst hk; rw [if_pos rfl, if_neg hij, zero_mul]
    · rw [if_neg hk]; simp
  · rw [List.mem_singleton] at hj
    subst hj
    by_cases hk : k = j
    · rw [if_pos hk, if_pos hk]; field_simp
    · rw [if_neg hk, if_neg hk]; field_simp; ring

/-- The diagonal element met in each pass passes the test. -/
def NoSmallPivot {n : ℕ} (big : K → Bool) :
    List (Fin n) → (Fin n → Fin n → K) × (Fin n → K) → Prop
  | [], _ => True
  | i :: is, s => big (s.1 i i * s.1 i i) = true ∧ NoSmallPivot big is (eliminate big i s)

theorem eliminate_all_inv {n : ℕ} (big : K → Bool) (hbig : big 0 = false) (is : List (Fin n)) (c : List (Fin n))
    (hnd : (c ++ is).Nodup) (s : (Fin n → Fin n → K) × (Fin n → K)) (hc : UnitColumns s.1 c)
    (hp : NoSmallPivot big is s) (x : Fin n → K) :
    UnitColumns (is.foldl (fun s i => eliminate big i s) s).1 (c ++ is) ∧
      (Solves (is.foldl (fun s i => eliminate big i s) s) x ↔ Solves s x) := by
  induction is generalizing c s with
  | nil => simpa using hc
  | cons i is ih =>
    obtain ⟨hb, hp⟩ := hp
    have h0 : s.1 i i ≠ 0 := by
      intro h; rw [h, mul_zero, hbig] at hb; cases hb
    have hi : i ∉ c := by
      intro h
      have := (List.nodup_append.1 hnd).2.2 i h i List.mem_cons_self
      exact this rfl
    rw [List.foldl_cons]
    have hnd' : ((c ++ [i]) ++ is).Nodup := by simpa using hnd
    obtain ⟨g1, g2⟩ := ih (c ++ [i]) hnd' (eliminate big i s) (eliminate_columns big i s hb h0 c hc hi) hp
    refine ⟨by simpa using g1, g2.trans (eliminate_solves big i s hb h0 x)⟩

/-- **C46 (projected system).** If no pivot is too small, the coefficients computed are the unique solution
of the projected system `Σ_j ⟨b_i, N b_j⟩ v_j = ⟨b_i, χ⟩`. Missing (`_partial`): the guess built from them,
see `C46_guess_not_combination`. -/
theorem C46_coefficients_partial {n : ℕ} (big : K → Bool) (hbig : big 0 = false) (M : Fin n → Fin n → K)
    (v : Fin n → K) (hp : NoSmallPivot big (List.finRange n) (M, v)) (x : Fin n → K) :
    (∀ k, ∑ j, M k j * x j = v k) ↔ x = (eliminateAll big M v).2 := by
  obtain ⟨h1, h2⟩ := eliminate_all_inv big hbig (List.finRange n) [] (by simpa using List.nodup_finRange n)
    (M, v) (fun j hj => by simp at hj) hp x
  have key : Solves (eliminateAll big M v) x ↔ x = (eliminateAll big M v).2 := by
    unfold Solves
    have hs : ∀ k, ∑ j, (eliminateAll big M v).1 k j * x j = x k := by
      intro k
      have : ∀ j, (eliminateAll big M v).1 k j * x j = if k = j then x j else 0 := by
        intro j
        have := h1 j (by simp) k
        rw [show (eliminateAll big M v).1 k j = _ from this]
        split <;> simp
      rw [Finset.sum_congr rfl fun j _ => this j]
      simp
    simp only [hs]
    constructor
    · intro h; funext k; exact h k
    · intro h k; rw [← h]
  rw [← key]
  exact h2.symm

/-! ### The guess -/

theorem foldl_last {α β : Type} (f : α → β) (l : List α) (z : β) :
    l.foldl (fun _ i => f i) z = (l.getLast?.map f).getD z := by
  induction l generalizing z with
  | nil => rfl
  | cons a l ih =>
    rw [List.foldl_cons, ih]
    cases l with
    | nil => rfl
    | cons b l =>
      rw [List.getLast?_cons_cons]
      rw [List.getLast?_eq_some_getLast (by simp)]
      rfl

/-- What is built from the coefficients: a multiple of the last basis vector; the other solutions are not
used. -/
theorem C46_guess_last_vector {n : ℕ} (basis : Fin (n + 1) → V) (v : Fin (n + 1) → K) :
    mreCombine basis v = (1 + v (Fin.last n)) • basis (Fin.last n) := by
  unfold mreCombine
  rw [foldl_last (fun i => basis i + v i • basis i)]
  have : (List.finRange (n + 1)).getLast? = some (Fin.last n) := by
    rw [List.getLast?_eq_getElem?]
    simp [Fin.last]
  rw [this]
  simp only [Option.map_some, Option.getD_some]
  rw [add_smul, one_smul]

/-- **C46 fails: the guess is not the combination of the old solutions.** Even if the only old solution
solves the problem exactly, the guess is twice the solution. -/
theorem C46_guess_not_combination (big : K → Bool) (hbig : big 0 = false) (ip : V → V → K) (N : V → V) (b : V)
    (hb : big (ip b (N b) * ip b (N b)) = true) :
    mreGuess big ip N (N b) [b] = (2 : K) • b := by
  have h0 : ip b (N b) ≠ 0 := by
    intro h; rw [h, mul_zero, hbig] at hb; cases hb
  have hbasis : mreBasis big ip [b] = [b] := by simp [mreBasis, removeProjections]
  unfold mreGuess
  rw [hbasis]
  unfold mreGuessFrom
  have hv : (eliminateAll big (fun j i : Fin 1 => ip ([b].get j) (N ([b].get i)))
      (fun i : Fin 1 => ip ([b].get i) (N b))).2 (Fin.last 0) = 1 := by
    simp [eliminateAll, eliminate, show List.finRange 1 = [0] from rfl, hb, h0]
  have := C46_guess_last_vector (n := 0) [b].get
    (eliminateAll big (fun j i : Fin 1 => ip ([b].get j) (N ([b].get i)))
      (fun i : Fin 1 => ip ([b].get i) (N b))).2
  rw [hv, one_add_one_eq_two] at this
  exact this

/-- **C46 fails: the basis is not orthogonal.** The projection is divided by the norm of the wrong vector:
from 2 and 1 (one component) the second vector becomes -3 instead of 0. -/
theorem C46_basis_not_orthogonal :
    mreBasis (fun x : ℚ => decide (x > 1 / 10 ^ 32)) (fun x y : ℚ => x * y) [2, 1] = [2, -3] := by
  decide +kernel

end field

/-! ### Concrete cases -/

example : NoSmallPivot (fun x : ℚ => decide (x > 1 / 10 ^ 32)) (List.finRange 2)
    (fun k j => if k = j then 2 else 1, fun k => if k = 0 then 4 else 5) := by
  rw [show List.finRange 2 = [0, 1] from by decide]
  refine ⟨by decide +kernel, by decide +kernel, trivial⟩

example : (eliminateAll (fun x : ℚ => decide (x > 1 / 10 ^ 32)) (fun k j : Fin 2 => if k = j then 2 else 1)
    (fun k => if k = 0 then 4 else 5)).2 = fun k => if k = 0 then 1 else 2 := by
  decide +kernel

/-- 4 x = 12 with the known solution 3: the guess is 6. -/
example : mreGuess (fun x : ℚ => decide (x > 1 / 10 ^ 32)) (fun x y : ℚ => x * y) (fun x => 4 * x) 12 [3] = 6 := by
  have := C46_guess_not_combination (K := ℚ) (V := ℚ) (fun x : ℚ => decide (x > 1 / 10 ^ 32)) (by decide +kernel)
    (fun x y => x * y) (fun x => 4 * x) 3 (by decide +kernel)
  norm_num at this
  exact this

end Hila
