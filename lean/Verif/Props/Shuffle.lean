import Verif.Lemmas.Shuffle
import Mathlib.Data.Fintype.Card
import Mathlib.Data.Fintype.BigOperators

/-!
# C21: shuffle is a uniform permutation; C23: the Levi-Civita table
-/

namespace Hila

open Equiv

/-- A sequence of random choices for an array of `n` elements: for each position `j` a number from 0
to `j`. (The choice at `j = 0` has only one value and is not drawn.) -/
abbrev Choices (n : ℕ) := (j : Fin n) → Fin (j.1 + 1)

/-- The choices as a function on all numbers. -/
def Choices.fn {n : ℕ} (c : Choices n) (j : ℕ) : ℕ := if h : j < n then (c ⟨j, h⟩).1 else 0

theorem Choices.fn_le {n : ℕ} (c : Choices n) (m : ℕ) : c.fn m ≤ m := by
  unfold Choices.fn
  split
  · have := (c ⟨m, by assumption⟩).2
    dsimp only at this
    omega
  · omega

theorem card_choices (n : ℕ) : Fintype.card (Choices n) = n.factorial := by
  rw [Fintype.card_pi]
  simp only [Fintype.card_fin]
  rw [Fin.prod_univ_eq_prod_range (fun j => j + 1) n]
  induction n with
  | zero => rfl
  | succ n ih => rw [Finset.prod_range_succ, ih, Nat.factorial_succ, Nat.mul_comm]

theorem shufProd_injective (n : ℕ) :
    Function.Injective fun c : Choices n => shufProd n c.fn (n - 1) := by
  intro c c' h
  funext j
  by_cases hj : j.1 = 0
  · apply Fin.ext
    have h1 := (c j).2; have h2 := (c' j).2
    omega
  · have hj2 := j.2
    have := shufProd_inj c.fn c'.fn (n - 1) (by omega) (fun m _ _ => c.fn_le m)
      (fun m _ _ => c'.fn_le m) h j.1 (by omega) (by omega)
    unfold Choices.fn at this
    rw [dif_pos hj2, dif_pos hj2] at this
    exact Fin.ext this

/-- **C21.** `shuffle` never accesses an element outside the array, and rearranges the array by a
permutation that corresponds one to one to the sequence of random choices: every permutation results
from exactly one sequence. -/
theorem C21_shuffle_uniform (n : ℕ) :
    ∃ e : Choices n ≃ Perm (Fin n), ∀ (α : Type) (f : Fin n → α) (c : Choices n),
      shuffle c.fn (List.ofFn f) = some (List.ofFn (f ∘ e c)) := by
  have hb : Function.Bijective fun c : Choices n => shufProd n c.fn (n - 1) := by
    rw [Fintype.bijective_iff_injective_and_card]
    refine ⟨shufProd_injective n, ?_⟩
    rw [card_choices, Fintype.card_perm, Fintype.card_fin]
  refine ⟨Equiv.ofBijective _ hb, fun α f c => ?_⟩
  unfold shuffle
  rw [List.length_ofFn, shuffleLoop_eq c.fn (n - 1) f (fun m _ _ => c.fn_le m) (by omega)]
  rfl

/-- **C21, every array.** Whatever the random numbers, the result contains the same items. -/
theorem C21_shuffle_perm {α : Type} (l : List α) (choice : ℕ → ℕ) (hc : ∀ j, choice j ≤ j) :
    ∃ l', shuffle choice l = some l' ∧ l'.Perm l := by
  have hl : l = List.ofFn l.get := (List.ofFn_get l).symm
  have h := shuffleLoop_eq (n := l.length) choice (l.length - 1) l.get (fun m _ _ => hc m) (by omega)
  refine ⟨List.ofFn (l.get ∘ shufProd l.length choice (l.length - 1)), ?_, ?_⟩
  · unfold shuffle
    conv_lhs => rw [hl]
    rw [List.length_ofFn]
    exact h
  · conv_rhs => rw [hl]
    exact Equiv.Perm.ofFn_comp_perm _ _

/-- **C21 (directions and parities).** All ranks get the same list, which contains every direction with
every parity exactly once. -/
theorem C21_directions_and_parities (ndim : ℕ) (choice : ℕ → ℕ → ℕ) (hc : ∀ r j, choice r j ≤ j) :
    ∃ l, (∀ r, shuffleDirsPars ndim choice r = some l) ∧ l.Nodup ∧ ∀ d p, (d, p) ∈ l ↔ d < ndim := by
  obtain ⟨l, h1, h2⟩ := C21_shuffle_perm (dirParArray ndim) (choice 0) (hc 0)
  refine ⟨l, fun r => h1, ?_, ?_⟩
  · rw [h2.nodup_iff]
    unfold dirParArray
    rw [List.nodup_flatMap]
    refine ⟨fun d _ => by simp, ?_⟩
    apply List.Pairwise.imp_of_mem _ (List.nodup_range (n := ndim))
    intro a b _ _ hab
    simp [Function.onFun, hab.symm]
  · intro d p
    rw [h2.mem_iff]
    unfold dirParArray
    simp only [List.mem_flatMap, List.mem_range]
    constructor
    · rintro ⟨x, hx, hm⟩
      have : d = x := by
        rcases List.mem_cons.1 hm with h | h
        · exact congrArg Prod.fst h
        · exact congrArg Prod.fst (List.mem_singleton.1 h)
      rw [this]; exact hx
    · intro hd
      exact ⟨d, hd, by cases p <;> simp⟩

/-- A case with four elements: choices 1, 0, 1 for j = 3, 2, 1. -/
example : shuffle (fun j => if j = 3 then 1 else if j = 2 then 0 else 1) ['a', 'b', 'c', 'd'] =
    some ['c', 'd', 'a', 'b'] := by decide

/-- **C23.** The table for `N ≥ 1` indices has `N!` rows, one for each permutation of `0..N-1`, each
followed by the signature of the permutation; no element outside the arrays is accessed. -/
theorem C23_table_complete (N : ℕ) (hN : 0 < N) :
    ∃ (table : List (List ℤ)) (e : Fin table.length ≃ Perm (Fin N)),
      leviCivita N N.factorial = some table ∧ table.length = N.factorial ∧
      ∀ j : Fin table.length, table[j] = List.ofFn (fun i => ((e j i : Fin N) : ℤ)) ++ [(Perm.sign (e j) : ℤ)] := by
  have h0 : ∀ m, (List.replicate N 0).getD m 0 = 0 := by
    intro m
    rw [List.getD_eq_getElem?_getD, List.getElem?_replicate]
    split <;> rfl
  have hval : leviVal N (List.replicate N 0) = 0 := by
    unfold leviVal
    apply Finset.sum_eq_zero
    intro i _
    rw [h0, Nat.zero_mul]
  obtain ⟨rows, inds, h1, h2, h3, h4⟩ := leviRows_spec hN N.factorial (List.replicate N 0) (by simp)
    (fun _ m _ => by rw [h0]; omega) (by rw [hval]; omega)
  have hinj : Function.Injective fun j : Fin rows.length =>
      leviProd N (fun m => (inds[j.1]'(by rw [h3, ← h2]; exact j.2)).getD m 0) (N - 1) := by
    intro j k hjk
    obtain ⟨a1, a2, _⟩ := h4 j.1 j.2 (by rw [h3, ← h2]; exact j.2)
    obtain ⟨b1, b2, _⟩ := h4 k.1 k.2 (by rw [h3, ← h2]; exact k.2)
    have he := leviProd_inj _ _ a2 b2 (N - 1) (by omega) hjk
    have : leviVal N (inds[j.1]'(by rw [h3, ← h2]; exact j.2)) =
        leviVal N (inds[k.1]'(by rw [h3, ← h2]; exact k.2)) := by
      unfold leviVal
      apply Finset.sum_congr rfl
      intro i hi
      rw [he i (by omega) (Finset.mem_range.1 hi)]
    rw [a1, b1] at this
    exact Fin.ext (by omega)
  have hb : Function.Bijective fun j : Fin rows.length =>
      leviProd N (fun m => (inds[j.1]'(by rw [h3, ← h2]; exact j.2)).getD m 0) (N - 1) := by
    rw [Fintype.bijective_iff_injective_and_card]
    refine ⟨hinj, ?_⟩
    rw [Fintype.card_fin, Fintype.card_perm, Fintype.card_fin, h2]
  refine ⟨rows, Equiv.ofBijective _ hb, h1, h2, fun j => ?_⟩
  exact (h4 j.1 j.2 (by rw [h3, ← h2]; exact j.2)).2.2

/-- The table for three indices. -/
example : leviCivita 3 6 = some [[0, 1, 2, 1], [0, 2, 1, -1], [1, 0, 2, -1], [1, 2, 0, 1],
    [2, 1, 0, -1], [2, 0, 1, 1]] := by decide

end Hila
