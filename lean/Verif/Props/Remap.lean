import Verif.Model.Remap
import Verif.Props.LayoutSearch
import Verif.Lemmas.MixedRadix

/-!
# C37: the map from logical node numbers to ranks
-/

namespace Hila

open BigOperators

variable {n : ℕ}

/-! ## Block sizes -/

theorem blockDivisor_spec (a b div : ℕ) (h : blockDivisor a b = some div) : 2 ≤ div ∧ div ∣ a ∧ div ∣ b := by
  have h1 := List.find?_some h
  have h2 := List.mem_of_find?_eq_some h
  simp only [decide_eq_true_eq] at h1
  simp only [List.mem_cons, List.not_mem_nil, or_false] at h2
  exact ⟨by omega, Nat.dvd_of_mod_eq_zero h1.1, Nat.dvd_of_mod_eq_zero h1.2⟩

/-- What stays true during the choice of the block sizes. -/
structure BlockInv (B : ℕ) (ndiv : Site n) (s : BlockSizes n) : Prop where
  pos : 0 < s.nblocks
  prod : (∏ d, s.blocksize d) * s.nblocks = B
  div : ∀ d, s.blocksize d * s.blockdivs d = ndiv d

theorem BlockInv.step {B : ℕ} {ndiv : Site n} {s : BlockSizes n} (h : BlockInv B ndiv s) (d : Fin n) :
    BlockInv B ndiv (blockSizeStep s d) ∧ (blockSizeStep s d).nblocks ≤ s.nblocks ∧
      ((blockSizeStep s d).found = true → s.found = true ∨ (blockSizeStep s d).nblocks < s.nblocks) := by
  unfold blockSizeStep
  split
  · exact ⟨h, le_refl _, fun h => Or.inl h⟩
  · rename_i div hd
    obtain ⟨h1, h2, h3⟩ := blockDivisor_spec _ _ _ hd
    have hpos := h.pos
    have hlt := Nat.div_lt_self hpos (by omega : 1 < div)
    refine ⟨⟨Nat.div_pos (Nat.le_of_dvd hpos h2) (by omega), ?_, ?_⟩, by dsimp only; omega, fun _ => Or.inr hlt⟩
    · dsimp only
      rw [Finset.prod_update_of_mem (Finset.mem_univ d), ← h.prod,
        ← Finset.prod_sdiff (Finset.subset_univ {d}) (f := s.blocksize), Finset.prod_singleton]
      conv_rhs => rw [← Nat.div_mul_cancel h2]
      ring
    · intro e
      dsimp only
      by_cases he : e = d
      · subst he
        rw [Function.update_self, Function.update_self, mul_assoc, Nat.mul_div_cancel' h3]
        exact h.div e
      · rw [Function.update_of_ne he, Function.update_of_ne he]
        exact h.div e

theorem BlockInv.pass {B : ℕ} {ndiv : Site n} (l : List (Fin n)) : ∀ {s : BlockSizes n}, BlockInv B ndiv s →
    BlockInv B ndiv (l.foldl blockSizeStep s) ∧ (l.foldl blockSizeStep s).nblocks ≤ s.nblocks ∧
      ((l.foldl blockSizeStep s).found = true → s.found = true ∨ (l.foldl blockSizeStep s).nblocks < s.nblocks) := by
  induction l with
  | nil => intro s h; exact ⟨h, le_refl _, Or.inl⟩
  | cons a l ih =>
    intro s h
    obtain ⟨h1, h2, h3⟩ := h.step a
    obtain ⟨k1, k2, k3⟩ := ih h1
    refine ⟨k1, k2.trans h2, fun hf => ?_⟩
    rw [List.foldl_cons] at hf ⊢
    rcases k3 hf with hf | hf
    · rcases h3 hf with hf | hf
      · exact Or.inl hf
      · exact Or.inr (lt_of_le_of_lt k2 hf)
    · exact Or.inr (lt_of_lt_of_le hf h2)

theorem blockSizeStep_found (s : BlockSizes n) (d : Fin n) (h : (blockSizeStep s d).found = false) :
    s.found = false ∧ blockDivisor s.nblocks (s.blockdivs d) = none ∧ blockSizeStep s d = s := by
  unfold blockSizeStep at h ⊢
  cases hb : blockDivisor s.nblocks (s.blockdivs d) with
  | none => rw [hb] at h; exact ⟨h, rfl, rfl⟩
  | some div => rw [hb] at h; cases h

/-- A pass that found nothing has tried all directions. -/
theorem pass_found (l : List (Fin n)) : ∀ (s : BlockSizes n), (l.foldl blockSizeStep s).found = false →
    s.found = false ∧ l.foldl blockSizeStep s = s ∧ ∀ d ∈ l, blockDivisor s.nblocks (s.blockdivs d) = none := by
  induction l with
  | nil => intro s h; exact ⟨h, rfl, by simp⟩
  | cons a l ih =>
    intro s h
    rw [List.foldl_cons] at h
    obtain ⟨h1, h2, h3⟩ := ih _ h
    obtain ⟨k1, k2, k3⟩ := blockSizeStep_found s a h1
    rw [k3] at h2 h3
    refine ⟨k1, by rw [List.foldl_cons, k3, h2], fun d hd => ?_⟩
    rcases List.mem_cons.1 hd with rfl | hd
    · exact k2
    · exact h3 d hd

theorem blockDivisor_none (a b : ℕ) : blockDivisor a b = none ↔
    ∀ p ∈ [2, 3, 5], ¬ (p ∣ a ∧ p ∣ b) := by
  unfold blockDivisor
  rw [List.find?_eq_none]
  constructor
  · intro h p hp hd
    simp only [List.mem_cons, List.not_mem_nil, or_false] at hp
    exact h p (by rcases hp with rfl | rfl | rfl <;> simp)
      (decide_eq_true ⟨Nat.mod_eq_zero_of_dvd hd.1, Nat.mod_eq_zero_of_dvd hd.2⟩)
  · intro h p hp hd
    have hd := of_decide_eq_true hd
    have h1 := Nat.dvd_of_mod_eq_zero hd.1
    have h2 := Nat.dvd_of_mod_eq_zero hd.2
    simp only [List.mem_cons, List.not_mem_nil, or_false] at hp
    rcases hp with rfl | rfl | rfl | rfl
    · exact h 2 (by simp) ⟨h1, h2⟩
    · exact h 3 (by simp) ⟨h1, h2⟩
    · exact h 2 (by simp) ⟨(by norm_num : 2 ∣ 4).trans h1, (by norm_num : 2 ∣ 4).trans h2⟩
    · exact h 5 (by simp) ⟨h1, h2⟩

theorem blockSizeLoop_end {B : ℕ} {ndiv : Site n} : ∀ fuel (s : BlockSizes n), BlockInv B ndiv s →
    s.nblocks < fuel → (s.found = false → ∀ d, blockDivisor s.nblocks (s.blockdivs d) = none) →
    BlockInv B ndiv (blockSizeLoop fuel s) ∧ ((blockSizeLoop fuel s).nblocks = 1 ∨
      ∀ d, blockDivisor (blockSizeLoop fuel s).nblocks ((blockSizeLoop fuel s).blockdivs d) = none) := by
  intro fuel
  induction fuel with
  | zero => intro s _ h; omega
  | succ fuel ih =>
    intro s hs hlt hfound
    unfold blockSizeLoop
    split
    · rename_i hc
      have hs' : BlockInv B ndiv (⟨s.nblocks, s.blocksize, s.blockdivs, false⟩ : BlockSizes n) := ⟨hs.pos, hs.prod, hs.div⟩
      obtain ⟨k1, k2, k3⟩ := hs'.pass (List.finRange n)
      have hnone := pass_found (List.finRange n) (⟨s.nblocks, s.blocksize, s.blockdivs, false⟩ : BlockSizes n)
      generalize hP : (List.finRange n).foldl blockSizeStep ⟨s.nblocks, s.blocksize, s.blockdivs, false⟩ = P at *
      have hdone : P.found = false → ∀ d, blockDivisor P.nblocks (P.blockdivs d) = none := by
        intro hf d
        obtain ⟨_, e, h2⟩ := hnone hf
        rw [e]
        exact h2 d (List.mem_finRange d)
      cases hPf : P.found with
      | true =>
        rcases k3 hPf with h | h
        · cases h
        · exact ih P k1 (by dsimp only at h; omega) hdone
      | false =>
        have hPe : blockSizeLoop fuel P = P := by
          cases fuel with
          | zero => rfl
          | succ m => unfold blockSizeLoop; rw [if_neg (by rw [hPf]; simp)]
        rw [hPe]
        exact ⟨k1, Or.inr (hdone hPf)⟩
    · rename_i hc
      refine ⟨hs, ?_⟩
      by_cases hf : s.found = true
      · left
        have : ¬ s.nblocks > 1 := fun h => hc ⟨hf, h⟩
        have := hs.pos
        omega
      · exact Or.inr (hfound (by simpa using hf))

theorem blockSizes_spec (B : ℕ) (hB : 0 < B) (ndiv : Site n) :
    BlockInv B ndiv (blockSizes B ndiv) ∧ ((blockSizes B ndiv).nblocks = 1 ∨
      ∀ d, blockDivisor (blockSizes B ndiv).nblocks ((blockSizes B ndiv).blockdivs d) = none) :=
  blockSizeLoop_end (B + 1) _ ⟨hB, by simp, fun d => by simp⟩ (by simp) (by simp)

/-! ## Indices -/

theorem runIndex_eq (s c : Site n) : runIndex s c = lex s c := by
  have key : ∀ {n : ℕ} (s c : Site n) (a m : ℕ),
      (List.finRange n).foldl (fun (a : ℕ × ℕ) d => (a.1 + c d * a.2, a.2 * s d)) (a, m) =
        (a + m * lex s c, m * ∏ d, s d) := by
    intro n
    induction n with
    | zero => intro s c a m; simp [lex]
    | succ n ih =>
      intro s c a m
      rw [List.finRange_succ, List.foldl_cons, List.foldl_map]
      have := ih (Fin.tail s) (Fin.tail c) (a + c 0 * m) (m * s 0)
      simp only [Fin.tail] at this
      rw [this, lex, Fin.prod_univ_succ]
      simp only [Prod.mk.injEq]
      constructor
      · show a + c 0 * m + m * s 0 * lex (Fin.tail s) (Fin.tail c) = a + m * (c 0 + s 0 * lex (Fin.tail s) (Fin.tail c))
        ring
      · ring
  unfold runIndex
  rw [key]
  simp

theorem foldl_prod (s : Site n) : (List.finRange n).foldl (fun m d => m * s d) 1 = ∏ d, s d := by
  have key : ∀ (l : List (Fin n)) (a : ℕ), l.foldl (fun m d => m * s d) a = a * (l.map s).prod := by
    intro l
    induction l with
    | nil => intro a; simp
    | cons x l ih => intro a; rw [List.foldl_cons, ih, List.map_cons, List.prod_cons, mul_assoc]
  rw [key, one_mul, ← List.ofFn_eq_map, List.prod_ofFn]

/-- Coordinates of a logical node: number of the block and position in the block. -/
theorem remapIndex_spec (ndiv : Site n) (hnd : ∀ d, 0 < ndiv d) (b : BlockSizes n)
    (hdiv : ∀ d, b.blocksize d * b.blockdivs d = ndiv d) (i : ℕ) :
    remapIndex ndiv b i = lex b.blockdivs (fun d => digits ndiv i d / b.blocksize d) * (∏ d, b.blocksize d) +
        lex b.blocksize (fun d => digits ndiv i d % b.blocksize d) ∧
      (∀ d, digits ndiv i d / b.blocksize d < b.blockdivs d) ∧ ∀ d, digits ndiv i d % b.blocksize d < b.blocksize d := by
  have hpos : ∀ d, 0 < b.blocksize d := fun d => by
    have h1 := hdiv d
    have h2 := hnd d
    rcases Nat.eq_zero_or_pos (b.blocksize d) with h | h
    · rw [h, zero_mul] at h1; omega
    · exact h
  refine ⟨by unfold remapIndex; dsimp only; rw [runIndex_eq, runIndex_eq, foldl_prod], fun d => ?_, fun d => Nat.mod_lt _ (hpos d)⟩
  rw [Nat.div_lt_iff_lt_mul (hpos d), mul_comm, hdiv d]
  exact digits_lt ndiv i hnd d

theorem remapIndex_lt (ndiv : Site n) (hnd : ∀ d, 0 < ndiv d) (b : BlockSizes n)
    (hdiv : ∀ d, b.blocksize d * b.blockdivs d = ndiv d) (i : ℕ) : remapIndex ndiv b i < ∏ d, ndiv d := by
  obtain ⟨h1, h2, h3⟩ := remapIndex_spec ndiv hnd b hdiv i
  have k1 := lex_lt _ _ h2
  have k2 := lex_lt _ _ h3
  have hp : (∏ d, ndiv d) = (∏ d, b.blockdivs d) * ∏ d, b.blocksize d := by
    rw [← Finset.prod_mul_distrib]
    exact Finset.prod_congr rfl fun d _ => by rw [mul_comm]; exact (hdiv d).symm
  rw [h1, hp]
  calc _ < lex b.blockdivs (fun d => digits ndiv i d / b.blocksize d) * (∏ d, b.blocksize d) + ∏ d, b.blocksize d := by omega
    _ = (lex b.blockdivs (fun d => digits ndiv i d / b.blocksize d) + 1) * ∏ d, b.blocksize d := by ring
    _ ≤ _ := Nat.mul_le_mul_right _ k1

theorem remapIndex_inj (ndiv : Site n) (hnd : ∀ d, 0 < ndiv d) (b : BlockSizes n)
    (hdiv : ∀ d, b.blocksize d * b.blockdivs d = ndiv d) (i j : ℕ) (hi : i < ∏ d, ndiv d) (hj : j < ∏ d, ndiv d)
    (h : remapIndex ndiv b i = remapIndex ndiv b j) : i = j := by
  obtain ⟨h1, h2, h3⟩ := remapIndex_spec ndiv hnd b hdiv i
  obtain ⟨k1, k2, k3⟩ := remapIndex_spec ndiv hnd b hdiv j
  have l1 := lex_lt _ _ h3
  have l2 := lex_lt _ _ k3
  rw [h1, k1] at h
  have hB : 0 < ∏ d, b.blocksize d := by omega
  have e1 := congrArg (· / ∏ d, b.blocksize d) h
  have e2 := congrArg (· % ∏ d, b.blocksize d) h
  rw [mul_comm, Nat.mul_add_div hB, Nat.div_eq_of_lt l1, mul_comm, Nat.mul_add_div hB, Nat.div_eq_of_lt l2] at e1
  rw [mul_comm, Nat.mul_add_mod, Nat.mod_eq_of_lt l1, mul_comm, Nat.mul_add_mod, Nat.mod_eq_of_lt l2] at e2
  have f1 := congrArg (digits b.blockdivs) e1
  have f2 := congrArg (digits b.blocksize) e2
  rw [add_zero, add_zero, digits_lex _ _ h2, digits_lex _ _ k2] at f1
  rw [digits_lex _ _ h3, digits_lex _ _ k3] at f2
  rw [← lex_digits ndiv i hi, ← lex_digits ndiv j hj]
  congr 1
  funext d
  have g1 := congrFun f1 d
  have g2 := congrFun f2 d
  rw [← Nat.div_add_mod (digits ndiv i d) (b.blocksize d), g1, g2, Nat.div_add_mod]

/-- The arrays after the loop. -/
theorem createRemap_spec (B : ℕ) (hB : 0 < B) (number : ℕ) (ndiv : Site n) (hnd : ∀ d, 0 < ndiv d)
    (hnum : ∏ d, ndiv d = number) (junk : (ℕ → ℕ) × (ℕ → ℕ)) :
    ∃ m, createRemap B number ndiv junk = some m ∧ ∀ i, i < number →
      m.1 i = remapIndex ndiv (blockSizes B ndiv) i ∧ m.2 (remapIndex ndiv (blockSizes B ndiv) i) = i := by
  obtain ⟨hinv, -⟩ := blockSizes_spec B hB ndiv
  generalize hb : blockSizes B ndiv = b at hinv
  have hlt := fun i => hnum ▸ remapIndex_lt ndiv hnd b hinv.div i
  have hinj := fun i j (hi : i < number) (hj : j < number) =>
    remapIndex_inj ndiv hnd b hinv.div i j (hnum.symm ▸ hi) (hnum.symm ▸ hj)
  have key : ∀ k, k ≤ number → ∃ m, (List.range k).foldlM (remapStep number ndiv b) junk = some m ∧
      ∀ i, i < k → m.1 i = remapIndex ndiv b i ∧ m.2 (remapIndex ndiv b i) = i := by
    intro k
    induction k with
    | zero => intro _; exact ⟨junk, rfl, by simp⟩
    | succ k ih =>
      intro hk
      obtain ⟨m, h1, h2⟩ := ih (by omega)
      refine ⟨_, by
        rw [List.range_succ, List.foldlM_append, h1]
        simp only [Option.bind_eq_bind, Option.bind_some, List.foldlM_cons, List.foldlM_nil]
        rw [remapStep, if_pos ⟨by omega, hlt k⟩]
        rfl, ?_⟩
      intro i hi
      dsimp only
      by_cases hik : i = k
      · subst hik
        rw [Function.update_self, Function.update_self]
        exact ⟨rfl, rfl⟩
      · rw [Function.update_of_ne hik, Function.update_of_ne (fun h => hik (hinj i k (by omega) (by omega) h))]
        exact h2 i (by omega)
  obtain ⟨m, h1, h2⟩ := key number (le_refl _)
  exact ⟨m, by unfold createRemap; rw [hb]; exact h1, h2⟩

/-! ## The property -/

/-- `create_remap` writes inside its arrays only, and the two maps are inverse permutations of the ranks, whatever the
arrays contained before. -/
theorem C37_permutation (B : ℕ) (hB : 0 < B) (number : ℕ) (ndiv : Site n) (hnd : ∀ d, 0 < ndiv d)
    (hnum : ∏ d, ndiv d = number) (junk : (ℕ → ℕ) × (ℕ → ℕ)) :
    ∃ m, createRemap B number ndiv junk = some m ∧
      (∀ i, i < number → m.1 i < number ∧ m.2 (m.1 i) = i) ∧
      ∀ r, r < number → m.2 r < number ∧ m.1 (m.2 r) = r := by
  obtain ⟨m, h1, h2⟩ := createRemap_spec B hB number ndiv hnd hnum junk
  obtain ⟨hinv, -⟩ := blockSizes_spec B hB ndiv
  generalize hb : blockSizes B ndiv = b at hinv h2
  have hlt := fun i => hnum ▸ remapIndex_lt ndiv hnd b hinv.div i
  have hinj := fun i j (hi : i < number) (hj : j < number) =>
    remapIndex_inj ndiv hnd b hinv.div i j (hnum.symm ▸ hi) (hnum.symm ▸ hj)
  refine ⟨m, h1, fun i hi => ?_, fun r hr => ?_⟩
  · rw [(h2 i hi).1]
    exact ⟨hlt i, (h2 i hi).2⟩
  · obtain ⟨i, hi, rfl⟩ : ∃ i, i < number ∧ remapIndex ndiv b i = r := by
      have hsurj : Function.Surjective (fun i : Fin number => (⟨remapIndex ndiv b i, hlt i⟩ : Fin number)) :=
        Finite.surjective_of_injective fun i j hij =>
          Fin.ext (hinj i j i.2 j.2 (congrArg Fin.val hij))
      obtain ⟨i, hi⟩ := hsurj ⟨r, hr⟩
      exact ⟨i, i.2, congrArg Fin.val hi⟩
    rw [(h2 i hi).2]
    exact ⟨hi, (h2 i hi).1⟩

/-- The ranks come in groups of consecutive numbers, one group for each box of `w` nodes: two logical nodes are in the
same group exactly when their coordinates divided by `w` agree. The group size divides the wanted size `B`, and it
is as large as possible: no factor 2, 3 or 5 that is left in `B` divides the number of groups in any direction. -/
theorem C37_groups (B : ℕ) (hB : 0 < B) (number : ℕ) (ndiv : Site n) (hnd : ∀ d, 0 < ndiv d)
    (hnum : ∏ d, ndiv d = number) (junk : (ℕ → ℕ) × (ℕ → ℕ)) :
    ∃ m, ∃ w : Site n, createRemap B number ndiv junk = some m ∧ (∀ d, w d ∣ ndiv d) ∧ (∏ d, w d) ∣ B ∧
      (∀ p ∈ [2, 3, 5], p ∣ B / ∏ d, w d → ∀ d, ¬ p ∣ ndiv d / w d) ∧
      ∀ i j, i < number → j < number →
        (m.1 i / (∏ d, w d) = m.1 j / (∏ d, w d) ↔ ∀ d, digits ndiv i d / w d = digits ndiv j d / w d) := by
  obtain ⟨m, h1, h2⟩ := createRemap_spec B hB number ndiv hnd hnum junk
  obtain ⟨hinv, hend⟩ := blockSizes_spec B hB ndiv
  generalize hb : blockSizes B ndiv = b at hinv h2 hend
  have hwpos : ∀ d, 0 < b.blocksize d := fun d => by
    rcases Nat.eq_zero_or_pos (b.blocksize d) with h | h
    · have := hinv.div d
      rw [h, zero_mul] at this
      have := hnd d
      omega
    · exact h
  have hW : 0 < ∏ d, b.blocksize d := Finset.prod_pos fun d _ => hwpos d
  refine ⟨m, b.blocksize, h1, fun d => ⟨_, (hinv.div d).symm⟩, ⟨_, hinv.prod.symm⟩, ?_, ?_⟩
  · intro p hp hd d
    rw [← hinv.prod, Nat.mul_div_cancel_left _ hW] at hd
    rw [← hinv.div d, Nat.mul_div_cancel_left _ (hwpos d)]
    rcases hend with he | he
    · rw [he] at hd
      have := Nat.le_of_dvd one_pos hd
      simp only [List.mem_cons, List.not_mem_nil, or_false] at hp
      omega
    · exact fun h => (blockDivisor_none _ _).1 (he d) p hp ⟨hd, h⟩
  · intro i j hi hj
    obtain ⟨p1, p2, p3⟩ := remapIndex_spec ndiv hnd b hinv.div i
    obtain ⟨q1, q2, q3⟩ := remapIndex_spec ndiv hnd b hinv.div j
    rw [(h2 i hi).1, (h2 j hj).1, p1, q1, mul_comm, Nat.mul_add_div hW, Nat.div_eq_of_lt (lex_lt _ _ p3), mul_comm,
      Nat.mul_add_div hW, Nat.div_eq_of_lt (lex_lt _ _ q3), add_zero, add_zero]
    constructor
    · intro h d
      have := congrArg (digits b.blockdivs) h
      rw [digits_lex _ _ p2, digits_lex _ _ q2] at this
      exact congrFun this d
    · intro h
      congr 1
      funext d
      exact h d

/-- The layout that `setup_layout` makes is as the other theorems assume (`Layout.WF`), for the block map and the
trivial map: the division found by the search and the map of the ranks fit together. -/
theorem C37_layout_valid [NeZero n] (nn : ℕ) (hnn : 0 < nn) (L : Site n) (hL : ∀ d, 0 < L d) (k : ℕ)
    (mdir : Fin n) (s : Slices n) (h : setupLayout nn L k = .leave mdir s) (B : ℕ) (hB : 0 < B)
    (junk : (ℕ → ℕ) × (ℕ → ℕ)) :
    (∃ m, createRemap B nn s.ndiv junk = some m ∧ (⟨L, s.ndiv, m.1, m.2⟩ : Layout n).WF) ∧
      (⟨L, s.ndiv, trivialRemap.1, trivialRemap.2⟩ : Layout n).WF := by
  obtain ⟨hf, hatt, h2⟩ := setupLayout_leave nn L k mdir s h
  obtain ⟨s', k1, k2, k3, k4, k5⟩ := attempt_spec nn hnn L hL hf mdir
  rw [hatt] at k1
  cases k1
  have hnum : ∀ a b, (⟨L, s.ndiv, a, b⟩ : Layout n).numNodes = nn := fun a b => k5
  constructor
  · obtain ⟨m, e1, e2, e3⟩ := C37_permutation B hB nn s.ndiv k3 k5 junk
    refine ⟨m, e1, hL, k3, ?_, ?_, ?_, ?_⟩ <;> intro i hi <;> rw [hnum] at *
    · exact (e2 i hi).1
    · exact (e3 i hi).1
    · exact (e3 i hi).2
    · exact (e2 i hi).2
  · exact ⟨hL, k3, fun i hi => hi, fun i hi => hi, fun i _ => rfl, fun i _ => rfl⟩

/-- The example in the comment of map_node_layout.cpp: 6 x 4 nodes in groups of 4. -/
example : (createRemap 4 24 (![6, 4] : Site 2) (fun _ => 77, fun _ => 77)).map
    (fun m => (List.range 12).map m.1) = some [0, 1, 4, 5, 8, 9, 2, 3, 6, 7, 10, 11] := by decide

example : ∃ m s, setupLayout 6 (![6, 8] : Site 2) 1 = .leave m s ∧ s.ndiv 0 = 3 ∧ s.ndiv 1 = 2 := by
  refine ⟨_, _, rfl, ?_, ?_⟩ <;> decide

end Hila
