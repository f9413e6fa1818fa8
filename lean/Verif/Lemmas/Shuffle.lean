import Verif.Model.Shuffle
import Mathlib.GroupTheory.Perm.Sign
import Mathlib.Data.List.OfFn
import Mathlib.Data.Fintype.Perm
import Mathlib.Algebra.BigOperators.Group.Finset.Basic
import Mathlib.Algebra.BigOperators.Fin
import Mathlib.Tactic.Ring

/-!
# Lemmas on swaps: shuffle and the Levi-Civita table
-/

namespace Hila

open Equiv

/-- The transposition of two positions (the identity if one of them is outside). -/
def sw (n i k : ℕ) : Perm (Fin n) :=
  if h : i < n ∧ k < n then swap ⟨i, h.1⟩ ⟨k, h.2⟩ else 1

theorem sw_eq {n i k : ℕ} (hi : i < n) (hk : k < n) : sw n i k = swap ⟨i, hi⟩ ⟨k, hk⟩ :=
  dif_pos ⟨hi, hk⟩

theorem sw_apply_of_ne {n i k : ℕ} (x : Fin n) (h1 : x.1 ≠ i) (h2 : x.1 ≠ k) : sw n i k x = x := by
  unfold sw
  split
  · apply swap_apply_of_ne_of_ne
    · intro h; exact h1 (congrArg Fin.val h)
    · intro h; exact h2 (congrArg Fin.val h)
  · rfl

theorem sw_self {n i : ℕ} : sw n i i = 1 := by
  unfold sw
  split
  · exact swap_self _
  · rfl

theorem swapAt_ofFn {α : Type} {n : ℕ} (f : Fin n → α) (i k : ℕ) (hi : i < n) (hk : k < n) :
    swapAt (List.ofFn f) i k = some (List.ofFn (f ∘ sw n i k)) := by
  have h1 : (List.ofFn f)[i]? = some (f ⟨i, hi⟩) := by simp [hi]
  have h2 : (List.ofFn f)[k]? = some (f ⟨k, hk⟩) := by simp [hk]
  unfold swapAt
  rw [h1, h2]
  dsimp only
  congr 1
  apply List.ext_getElem
  · simp
  · intro m hm1 hm2
    have hm : m < n := by simpa using hm2
    simp only [List.getElem_set, List.getElem_ofFn, Function.comp]
    have hsw : sw n i k ⟨m, hm⟩ = swap ⟨i, hi⟩ ⟨k, hk⟩ ⟨m, hm⟩ := by rw [sw_eq hi hk]
    rw [show (⟨m, (by simpa using hm2)⟩ : Fin n) = ⟨m, hm⟩ from rfl, hsw]
    by_cases hmk : k = m
    · subst hmk
      simp
    · by_cases hmi : i = m
      · subst hmi
        simp [hmk]
      · rw [if_neg hmk, if_neg hmi, swap_apply_of_ne_of_ne]
        · intro h; exact hmi (congrArg Fin.val h).symm
        · intro h; exact hmk (congrArg Fin.val h).symm

theorem swapAt_append {α : Type} (l r : List α) (i k : ℕ) (hi : i < l.length) (hk : k < l.length) :
    swapAt (l ++ r) i k = (swapAt l i k).map (· ++ r) := by
  unfold swapAt
  rw [List.getElem?_append_left hi, List.getElem?_append_left hk,
    List.getElem?_eq_getElem hi, List.getElem?_eq_getElem hk]
  simp only [Option.map_some, Option.some.injEq]
  rw [List.set_append_left _ _ hi, List.set_append_left _ _ (by rw [List.length_set]; exact hk)]

/-! ### shuffle -/

/-- Product of the transpositions of `shuffle` for `j` down to 1. -/
def shufProd (n : ℕ) (c : ℕ → ℕ) : ℕ → Perm (Fin n)
  | 0 => 1
  | j + 1 => sw n (c (j + 1)) (j + 1) * shufProd n c j

theorem shuffleLoop_eq {α : Type} {n : ℕ} (c : ℕ → ℕ) : ∀ (j : ℕ) (f : Fin n → α),
    (∀ m, 1 ≤ m → m ≤ j → c m ≤ m) → (j = 0 ∨ j < n) →
    shuffleLoop c j (List.ofFn f) = some (List.ofFn (f ∘ shufProd n c j)) := by
  intro j
  induction j with
  | zero => intro f _ _; rfl
  | succ j ih =>
    intro f hc hj
    have hj' : j + 1 < n := by omega
    have hcj := hc (j + 1) (by omega) (by omega)
    unfold shuffleLoop
    by_cases he : c (j + 1) = j + 1
    · rw [if_neg (by simpa using he), ih f (fun m h1 h2 => hc m h1 (by omega)) (by omega)]
      have : shufProd n c (j + 1) = shufProd n c j := by
        show sw n (c (j + 1)) (j + 1) * shufProd n c j = _
        rw [he, sw_self, one_mul]
      rw [this]
    · rw [if_pos he, swapAt_ofFn f _ _ (by omega) hj']
      simp only [Option.bind_some]
      rw [ih _ (fun m h1 h2 => hc m h1 (by omega)) (by omega)]
      rfl

theorem shufProd_fix {n : ℕ} (c : ℕ → ℕ) : ∀ j, (∀ m, 1 ≤ m → m ≤ j → c m ≤ m) →
    ∀ x : Fin n, j < x.1 → shufProd n c j x = x := by
  intro j
  induction j with
  | zero => intro _ x _; rfl
  | succ j ih =>
    intro hc x hx
    have hcj := hc (j + 1) (by omega) (by omega)
    show sw n (c (j + 1)) (j + 1) (shufProd n c j x) = x
    rw [ih (fun m h1 h2 => hc m h1 (by omega)) x (by omega)]
    exact sw_apply_of_ne x (by omega) (by omega)

theorem shufProd_inj {n : ℕ} (c c' : ℕ → ℕ) : ∀ j, j < n → (∀ m, 1 ≤ m → m ≤ j → c m ≤ m) →
    (∀ m, 1 ≤ m → m ≤ j → c' m ≤ m) → shufProd n c j = shufProd n c' j →
    ∀ m, 1 ≤ m → m ≤ j → c m = c' m := by
  intro j
  induction j with
  | zero => intro _ _ _ _ m h1 h2; omega
  | succ j ih =>
    intro hj hc hc' he m h1 h2
    have ev : ∀ d : ℕ → ℕ, (∀ m, 1 ≤ m → m ≤ j + 1 → d m ≤ m) →
        (shufProd n d (j + 1) ⟨j + 1, hj⟩).1 = d (j + 1) := by
      intro d hd
      have hdj := hd (j + 1) (by omega) (by omega)
      show (sw n (d (j + 1)) (j + 1) (shufProd n d j ⟨j + 1, hj⟩)).1 = _
      rw [shufProd_fix d j (fun m h1 h2 => hd m h1 (by omega)) _ (by show j < j + 1; omega),
        sw_eq (by omega) hj, swap_apply_right]
    have htop : c (j + 1) = c' (j + 1) := by rw [← ev c hc, ← ev c' hc', he]
    have hrest : shufProd n c j = shufProd n c' j := by
      have h : sw n (c (j + 1)) (j + 1) * shufProd n c j = sw n (c' (j + 1)) (j + 1) * shufProd n c' j := he
      rw [htop] at h
      exact mul_left_cancel h
    by_cases hm : m = j + 1
    · rw [hm]; exact htop
    · exact ih (by omega) (fun m h1 h2 => hc m h1 (by omega)) (fun m h1 h2 => hc' m h1 (by omega))
        hrest m h1 (by omega)

/-! ### Levi-Civita -/

/-- Product of the transpositions of a row, for the last `k` values of `i`. -/
def leviProd (N : ℕ) (ind : ℕ → ℕ) : ℕ → Perm (Fin N)
  | 0 => 1
  | k + 1 => sw N (N - 1 - (k + 1)) (N - 1 - (k + 1) + ind (N - 1 - (k + 1))) * leviProd N ind k

theorem leviProd_fix {N : ℕ} (ind : ℕ → ℕ) : ∀ k, k ≤ N - 1 → ∀ x : Fin N, x.1 < N - 1 - k →
    leviProd N ind k x = x := by
  intro k
  induction k with
  | zero => intro _ x _; rfl
  | succ k ih =>
    intro hk x hx
    show sw N _ _ (leviProd N ind k x) = x
    rw [ih (by omega) x (by omega)]
    exact sw_apply_of_ne x (by omega) (by omega)

theorem leviProd_inj {N : ℕ} (ind ind' : ℕ → ℕ) (h : ∀ i, i < N → ind i ≤ N - 1 - i)
    (h' : ∀ i, i < N → ind' i ≤ N - 1 - i) : ∀ k, k ≤ N - 1 →
    leviProd N ind k = leviProd N ind' k → ∀ i, N - 1 - k ≤ i → i < N → ind i = ind' i := by
  intro k
  induction k with
  | zero =>
    intro _ _ i h1 h2
    have a := h i h2; have b := h' i h2
    omega
  | succ k ih =>
    intro hk he i h1 h2
    have ev : ∀ d : ℕ → ℕ, (∀ i, i < N → d i ≤ N - 1 - i) →
        (leviProd N d (k + 1) ⟨N - 1 - (k + 1), by omega⟩).1 =
          N - 1 - (k + 1) + d (N - 1 - (k + 1)) := by
      intro d hd
      have := hd (N - 1 - (k + 1)) (by omega)
      show (sw N _ _ (leviProd N d k _)).1 = _
      rw [leviProd_fix d k (by omega) _ (by show N - 1 - (k + 1) < N - 1 - k; omega),
        sw_eq (by omega) (by omega), swap_apply_left]
    have htop : ind (N - 1 - (k + 1)) = ind' (N - 1 - (k + 1)) := by
      have a := ev ind h; have b := ev ind' h'
      rw [he] at a
      omega
    have hrest : leviProd N ind k = leviProd N ind' k := by
      have hh : sw N (N - 1 - (k + 1)) (N - 1 - (k + 1) + ind (N - 1 - (k + 1))) * leviProd N ind k =
        sw N (N - 1 - (k + 1)) (N - 1 - (k + 1) + ind' (N - 1 - (k + 1))) * leviProd N ind' k := he
      rw [htop] at hh
      exact mul_left_cancel hh
    by_cases hi : i = N - 1 - (k + 1)
    · rw [hi]; exact htop
    · exact ih (by omega) hrest i (by omega) h2

/-- A row of the table. -/
def leviRow {N : ℕ} (f : Fin N → ℤ) (s : ℤ) : List ℤ := List.ofFn f ++ [s]

theorem leviApply_eq {N : ℕ} (ind : List ℕ) (hlen : ind.length = N)
    (hv : ∀ i, i < N → ind.getD i 0 ≤ N - 1 - i) : ∀ k, k ≤ N - 1 → ∀ (f : Fin N → ℤ) (s : ℤ),
    leviApply N ind k (leviRow f s) =
      some (leviRow (f ∘ leviProd N (fun i => ind.getD i 0) k)
        (s * (Perm.sign (leviProd N (fun i => ind.getD i 0) k) : ℤ))) := by
  intro k
  induction k with
  | zero =>
    intro _ f s
    have h1 : leviProd N (fun i => ind.getD i 0) 0 = 1 := rfl
    rw [h1]
    show some (leviRow f s) = _
    simp
  | succ k ih =>
    intro hk f s
    have hiN : N - 1 - (k + 1) < N := by omega
    have hget : ind[N - 1 - (k + 1)]? = some (ind.getD (N - 1 - (k + 1)) 0) := by
      rw [List.getD_eq_getElem?_getD, List.getElem?_eq_getElem (by omega)]
      rfl
    have hx := hv (N - 1 - (k + 1)) hiN
    unfold leviApply
    dsimp only
    rw [hget]
    dsimp only
    have hP : leviProd N (fun i => ind.getD i 0) (k + 1) =
      sw N (N - 1 - (k + 1)) (N - 1 - (k + 1) + ind.getD (N - 1 - (k + 1)) 0) *
        leviProd N (fun i => ind.getD i 0) k := rfl
    by_cases h0 : ind.getD (N - 1 - (k + 1)) 0 = 0
    · rw [if_neg (by simpa using h0), ih (by omega) f s, hP, h0]
      simp only [Nat.add_zero, sw_self, one_mul]
    · have hne : N - 1 - (k + 1) ≠ N - 1 - (k + 1) + ind.getD (N - 1 - (k + 1)) 0 := by omega
      rw [if_pos h0]
      unfold leviRow
      rw [swapAt_append _ _ _ _ (by rw [List.length_ofFn]; omega) (by rw [List.length_ofFn]; omega),
        swapAt_ofFn f _ _ hiN (by omega)]
      simp only [Option.map_some]
      have hlast : ∀ g : Fin N → ℤ, (List.ofFn g ++ [s])[N]? = some s := by
        intro g
        rw [List.getElem?_append_right (by simp)]
        simp
      rw [hlast]
      dsimp only
      have hset : ∀ g : Fin N → ℤ, (List.ofFn g ++ [s]).set N (-s) = List.ofFn g ++ [-s] := by
        intro g
        rw [List.set_append_right _ _ (by simp)]
        simp
      rw [hset]
      have hih := ih (by omega) (f ∘ sw N (N - 1 - (k + 1))
        (N - 1 - (k + 1) + ind.getD (N - 1 - (k + 1)) 0)) (-s)
      unfold leviRow at hih
      rw [hih, hP]
      have hsign : Perm.sign (sw N (N - 1 - (k + 1))
          (N - 1 - (k + 1) + ind.getD (N - 1 - (k + 1)) 0)) = -1 := by
        rw [sw_eq hiN (by omega), Perm.sign_swap]
        intro h
        exact hne (congrArg Fin.val h)
      rw [Perm.sign_mul, hsign]
      have : -s * (Perm.sign (leviProd N (fun i => ind.getD i 0) k) : ℤ) =
          s * ((-1 * Perm.sign (leviProd N (fun i => ind.getD i 0) k) : ℤˣ) : ℤ) := by
        push_cast
        ring
      rw [this]
      rfl

/-! ### The counter -/

/-- Value of the permutation vector as a number in factorial base. -/
def leviVal (N : ℕ) (ind : List ℕ) : ℕ :=
  ∑ i ∈ Finset.range N, ind.getD i 0 * (N - 1 - i).factorial

theorem getD_set {l : List ℕ} {i m x : ℕ} (hi : i < l.length) :
    (l.set i x).getD m 0 = if m = i then x else l.getD m 0 := by
  rw [List.getD_eq_getElem?_getD, List.getD_eq_getElem?_getD, List.getElem?_set]
  by_cases h : m = i
  · subst h; simp [hi]
  · rw [if_neg h, if_neg (Ne.symm h)]

theorem getD_modify {l : List ℕ} {i m : ℕ} (hi : i < l.length) :
    (l.modify i (· + 1)).getD m 0 = if m = i then l.getD i 0 + 1 else l.getD m 0 := by
  rw [List.getD_eq_getElem?_getD, List.getElem?_modify, Option.map_eq_map]
  by_cases h : m = i
  · subst h
    simp [List.getD_eq_getElem?_getD, hi]
  · rw [if_neg h, List.getD_eq_getElem?_getD]
    simp [Ne.symm h]

theorem leviVal_modify {N : ℕ} (ind : List ℕ) (hlen : ind.length = N) (i : ℕ) (hi : i < N) :
    leviVal N (ind.modify i (· + 1)) = leviVal N ind + (N - 1 - i).factorial := by
  unfold leviVal
  rw [← Finset.add_sum_erase _ _ (Finset.mem_range.2 hi),
    ← Finset.add_sum_erase (Finset.range N) (fun i => ind.getD i 0 * (N - 1 - i).factorial)
      (Finset.mem_range.2 hi), getD_modify (by omega), if_pos rfl]
  have : ∑ x ∈ (Finset.range N).erase i, (ind.modify i (· + 1)).getD x 0 * (N - 1 - x).factorial =
      ∑ x ∈ (Finset.range N).erase i, ind.getD x 0 * (N - 1 - x).factorial := by
    apply Finset.sum_congr rfl
    intro x hx
    rw [getD_modify (by omega), if_neg (Finset.ne_of_mem_erase hx)]
  rw [this]
  ring

theorem leviVal_set {N : ℕ} (ind : List ℕ) (hlen : ind.length = N) (i : ℕ) (hi : i < N) :
    leviVal N (ind.set i 0) + ind.getD i 0 * (N - 1 - i).factorial = leviVal N ind := by
  unfold leviVal
  rw [← Finset.add_sum_erase _ _ (Finset.mem_range.2 hi),
    ← Finset.add_sum_erase (Finset.range N) (fun i => ind.getD i 0 * (N - 1 - i).factorial)
      (Finset.mem_range.2 hi), getD_set (by omega), if_pos rfl]
  have : ∑ x ∈ (Finset.range N).erase i, (ind.set i 0).getD x 0 * (N - 1 - x).factorial =
      ∑ x ∈ (Finset.range N).erase i, ind.getD x 0 * (N - 1 - x).factorial := by
    apply Finset.sum_congr rfl
    intro x hx
    rw [getD_set (by omega), if_neg (Finset.ne_of_mem_erase hx)]
  rw [this]
  ring

theorem leviCarry_spec {N : ℕ} : ∀ (i : ℕ) (ind : List ℕ), i < N → ind.length = N →
    (∀ m, m < N → m ≠ i → ind.getD m 0 ≤ N - 1 - m) → ind.getD i 0 ≤ N - i →
    (leviCarry N i ind).length = N ∧ leviVal N (leviCarry N i ind) = leviVal N ind ∧
    ∀ m, 1 ≤ m → m < N → (leviCarry N i ind).getD m 0 ≤ N - 1 - m := by
  intro i
  induction i with
  | zero =>
    intro ind _ hlen hv _
    exact ⟨hlen, rfl, fun m h1 h2 => hv m h2 (by omega)⟩
  | succ i ih =>
    intro ind hi hlen hv hvi
    unfold leviCarry
    split
    · rename_i hgt
      have hval : ind.getD (i + 1) 0 = N - (i + 1) := by omega
      obtain ⟨h1, h2, h3⟩ := ih ((ind.set (i + 1) 0).modify i (· + 1)) (by omega) (by simp [hlen])
        (by
          intro m hm hne
          rw [getD_modify (by rw [List.length_set]; omega), if_neg hne, getD_set (by omega)]
          split
          · omega
          · exact hv m hm (by assumption))
        (by
          rw [getD_modify (by rw [List.length_set]; omega), if_pos rfl, getD_set (by omega),
            if_neg (by omega)]
          have := hv i (by omega) (by omega)
          omega)
      refine ⟨h1, ?_, h3⟩
      rw [h2, leviVal_modify _ (by simp [hlen]) i (by omega), ← leviVal_set ind hlen (i + 1) hi, hval]
      have hf : (N - 1 - i).factorial = (N - (i + 1)) * (N - 1 - (i + 1)).factorial := by
        have : N - 1 - i = (N - 1 - (i + 1)) + 1 := by omega
        rw [this, Nat.factorial_succ]
        congr 1
        omega
      rw [hf]
    · rename_i hgt
      exact ih ind (by omega) hlen (by
        intro m hm hne
        by_cases hmi : m = i + 1
        · subst hmi; omega
        · exact hv m hm hmi) (by
        have := hv i (by omega) (by omega)
        omega)

theorem leviNext_spec {N : ℕ} (hN : 0 < N) (ind : List ℕ) (hlen : ind.length = N)
    (hv : ∀ m, m < N → ind.getD m 0 ≤ N - 1 - m) (hlt : leviVal N ind + 1 < N.factorial) :
    (leviNext N ind).length = N ∧ leviVal N (leviNext N ind) = leviVal N ind + 1 ∧
    ∀ m, m < N → (leviNext N ind).getD m 0 ≤ N - 1 - m := by
  unfold leviNext
  obtain ⟨h1, h2, h3⟩ := leviCarry_spec (N := N) (N - 1) (ind.modify (N - 1) (· + 1)) (by omega)
    (by simp [hlen])
    (by
      intro m hm hne
      rw [getD_modify (by omega), if_neg hne]
      exact hv m hm)
    (by
      rw [getD_modify (by omega), if_pos rfl]
      have := hv (N - 1) (by omega)
      omega)
  have h2' : leviVal N (leviCarry N (N - 1) (ind.modify (N - 1) (· + 1))) = leviVal N ind + 1 := by
    rw [h2, leviVal_modify ind hlen (N - 1) (by omega)]
    have : N - 1 - (N - 1) = 0 := by omega
    rw [this]; rfl
  refine ⟨h1, h2', ?_⟩
  intro m hm
  by_cases hm0 : 1 ≤ m
  · exact h3 m hm0 hm
  · have hm00 : m = 0 := by omega
    subst hm00
    by_contra hbig
    have hge : N ≤ (leviCarry N (N - 1) (ind.modify (N - 1) (· + 1))).getD 0 0 := by omega
    have hle : (leviCarry N (N - 1) (ind.modify (N - 1) (· + 1))).getD 0 0 * (N - 1 - 0).factorial ≤
        leviVal N (leviCarry N (N - 1) (ind.modify (N - 1) (· + 1))) := by
      unfold leviVal
      exact Finset.single_le_sum
        (f := fun i => (leviCarry N (N - 1) (ind.modify (N - 1) (· + 1))).getD i 0 *
          (N - 1 - i).factorial) (fun _ _ => Nat.zero_le _) (Finset.mem_range.2 hm)
    have hfac : N.factorial = N * (N - 1).factorial := by
      obtain ⟨M, rfl⟩ : ∃ M, N = M + 1 := ⟨N - 1, by omega⟩
      rw [Nat.factorial_succ]; rfl
    have := Nat.mul_le_mul_right (N - 1).factorial hge
    rw [h2'] at hle
    rw [Nat.sub_zero] at hle
    omega

/-- The rows from a given permutation vector on. -/
theorem leviRows_spec {N : ℕ} (hN : 0 < N) : ∀ (count : ℕ) (ind : List ℕ), ind.length = N →
    (0 < count → ∀ m, m < N → ind.getD m 0 ≤ N - 1 - m) →
    leviVal N ind + count = N.factorial →
    ∃ (rows : List (List ℤ)) (inds : List (List ℕ)), leviRows N count ind = some rows ∧
      rows.length = count ∧ inds.length = count ∧
      ∀ j (h1 : j < rows.length) (h2 : j < inds.length),
        leviVal N inds[j] = leviVal N ind + j ∧
        (∀ m, m < N → inds[j].getD m 0 ≤ N - 1 - m) ∧
        rows[j] = leviRow (fun i => ((leviProd N (fun m => inds[j].getD m 0) (N - 1) i : Fin N) : ℤ))
          (Perm.sign (leviProd N (fun m => inds[j].getD m 0) (N - 1)) : ℤ) := by
  intro count
  induction count with
  | zero =>
    intro ind _ _ _
    exact ⟨[], [], rfl, rfl, rfl, fun j h1 => by simp at h1⟩
  | succ count ih =>
    intro ind hlen hv hval
    have hv := hv (by omega)
    have hrow := leviApply_eq ind hlen hv (N - 1) (by omega) (fun i : Fin N => (i : ℤ)) 1
    have hinit : leviRow (fun i : Fin N => ((i : ℕ) : ℤ)) 1 =
        (List.range N).map (fun i : ℕ => (i : ℤ)) ++ [1] := by
      unfold leviRow
      congr 1
      apply List.ext_getElem
      · rw [List.length_ofFn, List.length_map, List.length_range]
      · intro m h1 h2
        rw [List.getElem_ofFn, List.getElem_map, List.getElem_range]
    rw [hinit] at hrow
    have hnext : ∃ (rows : List (List ℤ)) (inds : List (List ℕ)), leviRows N count (leviNext N ind) = some rows ∧
      rows.length = count ∧ inds.length = count ∧
      ∀ j (h1 : j < rows.length) (h2 : j < inds.length),
        leviVal N inds[j] = leviVal N ind + 1 + j ∧
        (∀ m, m < N → inds[j].getD m 0 ≤ N - 1 - m) ∧
        rows[j] = leviRow (fun i => ((leviProd N (fun m => inds[j].getD m 0) (N - 1) i : Fin N) : ℤ))
          (Perm.sign (leviProd N (fun m => inds[j].getD m 0) (N - 1)) : ℤ) := by
      by_cases hc : count = 0
      · subst hc
        exact ⟨[], [], rfl, rfl, rfl, fun j h1 => by simp at h1⟩
      · obtain ⟨n1, n2, n3⟩ := leviNext_spec hN ind hlen hv (by omega)
        obtain ⟨rows, inds, h1, h2, h3, h4⟩ := ih (leviNext N ind) n1 (fun _ => n3) (by omega)
        refine ⟨rows, inds, h1, h2, h3, fun j a b => ?_⟩
        rw [← n2]; exact h4 j a b
    obtain ⟨rows, inds, h1, h2, h3, h4⟩ := hnext
    refine ⟨leviRow (fun i => ((leviProd N (fun m => ind.getD m 0) (N - 1) i : Fin N) : ℤ))
        (Perm.sign (leviProd N (fun m => ind.getD m 0) (N - 1)) : ℤ) :: rows, ind :: inds, ?_, ?_, ?_, ?_⟩
    · unfold leviRows
      rw [hrow, h1, one_mul]
      rfl
    · simp [h2]
    · simp [h3]
    · intro j a b
      cases j with
      | zero => exact ⟨rfl, hv, rfl⟩
      | succ j =>
        obtain ⟨c1, c2, c3⟩ := h4 j (by simpa using a) (by simpa using b)
        refine ⟨?_, c2, c3⟩
        refine (c1 : _ = _).trans ?_
        omega

end Hila
