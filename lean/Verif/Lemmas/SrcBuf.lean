import Verif.Model.SourceDoc
import Mathlib.Algebra.BigOperators.Group.Finset.Basic
import Mathlib.Algebra.BigOperators.Group.List.Basic
import Mathlib.Algebra.Order.BigOperators.Group.Finset
import Mathlib.Tactic.Ring
import Mathlib.Tactic.Push

/-! # Lemmas about the source buffer -/

namespace Hila

namespace SrcBuf

/-- What stands at position `i`. -/
def cell (s : SrcBuf) (i : ℕ) : List Char :=
  (if (s.extInd i).natAbs > 1 then s.extentAt i else []) ++ if s.extInd i > 0 then [s.charAt i] else []

/-- The cells from `j` on. -/
def rest (s : SrcBuf) (j : ℕ) : List Char := (List.range' j (s.trueSize - j)).flatMap s.cell

theorem cell_zero (s : SrcBuf) (i : ℕ) (h : s.extInd i = 0) : s.cell i = [] := by simp [cell, h]

theorem rest_cons (s : SrcBuf) (j : ℕ) (h : j < s.trueSize) : s.rest j = s.cell j ++ s.rest (j + 1) := by
  unfold rest
  obtain ⟨k, hk⟩ : ∃ k, s.trueSize - j = k + 1 := ⟨s.trueSize - j - 1, by omega⟩
  rw [hk, show s.trueSize - (j + 1) = k by omega, List.range'_succ]
  rfl

theorem rest_nil (s : SrcBuf) (j : ℕ) (h : s.trueSize ≤ j) : s.rest j = [] := by
  unfold rest; rw [Nat.sub_eq_zero_of_le h]; rfl

theorem skipRemoved_spec (s : SrcBuf) : ∀ fuel j, s.trueSize ≤ j + fuel →
    j ≤ s.skipRemoved fuel j ∧ (∀ i, j ≤ i → i < s.skipRemoved fuel j → i < s.trueSize ∧ s.extInd i = 0) ∧
      (s.skipRemoved fuel j < s.trueSize → s.extInd (s.skipRemoved fuel j) ≠ 0) := by
  intro fuel
  induction fuel with
  | zero => intro j h; exact ⟨le_refl _, by intro i h1 h2; simp only [skipRemoved] at h2; omega, by intro h2; simp only [skipRemoved] at h2; omega⟩
  | succ n ih =>
    intro j h
    unfold skipRemoved
    split
    · rename_i hc
      obtain ⟨h1, h2, h3⟩ := ih (j + 1) (by omega)
      refine ⟨by omega, ?_, h3⟩
      intro i hi hi2
      rcases Nat.eq_or_lt_of_le hi with rfl | h4
      · exact hc
      · exact h2 i h4 hi2
    · rename_i hc
      refine ⟨le_refl _, by intro i h1 h2; omega, ?_⟩
      intro h2 h3; exact hc ⟨h2, h3⟩

theorem rest_skip (s : SrcBuf) (j k : ℕ) (hjk : j ≤ k) (h : ∀ i, j ≤ i → i < k → i < s.trueSize ∧ s.extInd i = 0) : s.rest j = s.rest k := by
  induction k with
  | zero => rw [Nat.le_zero.mp hjk]
  | succ k ih =>
    rcases Nat.eq_or_lt_of_le hjk with rfl | h1
    · rfl
    · rw [ih (by omega) fun i h2 h3 => h i h2 (by omega)]
      obtain ⟨h2, h3⟩ := h k (by omega) (by omega)
      rw [rest_cons s k h2, cell_zero s k h3]; rfl

/-- What the copying loop yields. -/
theorem mapLoop_spec (s : SrcBuf) (len : ℕ) (hm : ∀ i, s.extInd i ≠ -1) : ∀ fuel j out, s.trueSize < j + fuel → out.length ≤ len →
    s.mapLoop len fuel j out =
      if len ≤ out.length + (s.rest j).length then (out ++ s.rest j).take len
      else out ++ s.rest j ++ if j < s.trueSize ∧ s.extInd (s.trueSize - 1) = 0 then [' '] else [] := by
  intro fuel
  induction fuel with
  | zero =>
    intro j out h hl
    rw [rest_nil s j (by omega)]
    simp only [mapLoop, List.length_nil, Nat.add_zero, List.append_nil]
    split
    · rw [List.take_of_length_le (by omega)]
    · rw [if_neg (by omega)]; simp
  | succ n ih =>
    intro j out h hl
    unfold mapLoop
    by_cases hc : out.length < len ∧ j < s.trueSize
    · rw [if_pos hc]
      obtain ⟨h1, h2, h3⟩ := s.skipRemoved_spec s.trueSize j (by omega)
      have hr := s.rest_skip j _ h1 h2
      dsimp only
      generalize hk : s.skipRemoved s.trueSize j = k at *
      by_cases hkt : k < s.trueSize
      · have h0 := h3 hkt
        rw [if_pos hkt, hr, rest_cons s k hkt]
        -- the end of the list is the same condition
        have hend : ∀ (p : Prop) [Decidable p], (k + 1 < s.trueSize ∧ s.extInd (s.trueSize - 1) = 0 ↔ p) → (j < s.trueSize ∧ s.extInd (s.trueSize - 1) = 0 ↔ p) := by
          intro p _ hp
          rw [← hp]
          constructor
          · rintro ⟨_, h5⟩
            refine ⟨?_, h5⟩
            by_contra h6
            have : k = s.trueSize - 1 := by omega
            exact h0 (this ▸ h5)
          · rintro ⟨h4, h5⟩; exact ⟨by omega, h5⟩
        have hend' : (if j < s.trueSize ∧ s.extInd (s.trueSize - 1) = 0 then [' '] else []) =
            (if k + 1 < s.trueSize ∧ s.extInd (s.trueSize - 1) = 0 then [' '] else []) :=
          if_congr (hend _ Iff.rfl) rfl rfl
        rw [hend']
        by_cases he1 : s.extInd k = 1
        · rw [if_pos he1, ih (k + 1) _ (by omega) (by simp; omega)]
          have hcell : s.cell k = [s.charAt k] := by simp [cell, he1]
          rw [hcell]
          simp only [List.length_append, List.length_singleton, List.append_assoc]
          simp only [Nat.add_assoc]
        · rw [if_neg he1]
          have habs : (s.extInd k).natAbs > 1 := by
            have := hm k; omega
          have hcell : s.cell k = s.extentAt k ++ if s.extInd k > 0 then [s.charAt k] else [] := by
            unfold cell; rw [if_pos habs]
          rw [hcell]
          generalize hE : s.extentAt k = e at *
          by_cases hfit : out.length + e.length < len
          · have htk : e.take (len - out.length) = e := List.take_of_length_le (by omega)
            rw [htk]
            by_cases hpos : s.extInd k > 0
            · rw [if_pos ⟨by rw [List.length_append]; omega, hpos⟩, if_pos hpos, ih (k + 1) _ (by omega) (by simp; omega)]
              simp only [List.length_append, List.length_singleton, List.append_assoc]
              simp only [Nat.add_assoc]
            · rw [if_neg (by rintro ⟨_, h5⟩; exact hpos h5), if_neg hpos, ih (k + 1) _ (by omega) (by simp; omega)]
              simp only [List.length_append, List.append_assoc, List.append_nil]
              simp only [Nat.add_assoc]
          · have hlen : (out ++ e.take (len - out.length)).length = len := by
              rw [List.length_append, List.length_take]; omega
            rw [if_neg (by rintro ⟨h5, _⟩; omega), ih (k + 1) _ (by omega) (by omega)]
            rw [if_pos (by omega), if_pos (by simp only [List.length_append]; omega)]
            rw [List.take_append_of_le_length (by omega), List.take_of_length_le (by omega)]
            rw [List.append_assoc, ← List.append_assoc out, List.take_append_of_le_length (by rw [List.length_append]; omega)]
            rw [List.take_append, List.take_of_length_le (show out.length ≤ len by omega)]
      · rw [if_neg hkt, hr, rest_nil s k (by omega), ih (k + 1) _ (by omega) (by simp; omega), rest_nil s (k + 1) (by omega)]
        have hz : s.extInd (s.trueSize - 1) = 0 := (h2 (s.trueSize - 1) (by omega) (by omega)).2
        simp only [List.length_append, List.length_singleton, List.length_nil, Nat.add_zero, List.append_nil]
        rw [if_neg (show ¬ len ≤ out.length by omega), if_pos (show j < s.trueSize ∧ s.extInd (s.trueSize - 1) = 0 from ⟨hc.2, hz⟩),
          if_neg (show ¬ (k + 1 < s.trueSize ∧ s.extInd (s.trueSize - 1) = 0) by omega), List.append_nil]
        split
        · rw [List.take_of_length_le (by simp; omega)]
        · rfl
    · rw [if_neg hc]
      by_cases hj : j < s.trueSize
      · have : out.length = len := by omega
        rw [if_pos (by omega), List.take_append_of_le_length (by omega), List.take_of_length_le (by omega)]
      · rw [rest_nil s j (by omega)]
        simp only [List.length_nil, Nat.add_zero, List.append_nil]
        split
        · rw [List.take_of_length_le (by omega)]
        · rw [if_neg (by omega)]; simp

/-- The prefix of the rest up to position `b`. -/
theorem rest_split (s : SrcBuf) (a b : ℕ) (h1 : a ≤ b) (h2 : b ≤ s.trueSize) :
    s.rest a = (List.range' a (b - a)).flatMap s.cell ++ s.rest b := by
  unfold rest
  rw [← List.flatMap_append]
  congr 1
  have : s.trueSize - a = (b - a) + (s.trueSize - b) := by omega
  rw [this, ← List.range'_append_1, show a + (b - a) = b by omega]

theorem indexRangeSize_spec (s : SrcBuf) (a b : ℕ) (h1 : a ≤ b) (h2 : b < s.trueSize) :
    s.indexRangeSize a b = some (((List.range' a (b + 1 - a)).flatMap s.cell).length) := by
  unfold indexRangeSize
  rw [if_pos ⟨h1, h2⟩]
  congr 1
  have : ∀ (l : List ℕ) n, l.foldl (fun size i =>
      let size := if s.extInd i > 0 then size + 1 else size
      if (s.extInd i).natAbs > 1 then size + (s.extentAt i).length else size) n = n + (l.flatMap s.cell).length := by
    intro l
    induction l with
    | nil => intro n; simp
    | cons x xs ih =>
      intro n
      rw [List.foldl_cons, ih, List.flatMap_cons, List.length_append]
      dsimp only
      unfold cell
      rw [List.length_append]
      split <;> split <;> simp <;> omega
  rw [this]; simp

theorem get_spec (s : SrcBuf) (hm : ∀ i, s.extInd i ≠ -1) (a b : ℕ) (h1 : a ≤ b) (h2 : b < s.trueSize) :
    s.get a b = some ((List.range' a (b + 1 - a)).flatMap s.cell) := by
  unfold get
  rw [s.indexRangeSize_spec a b h1 h2, Option.map_some]
  congr 1
  unfold getMapped
  rw [s.mapLoop_spec _ hm _ _ _ (by omega) (by simp), s.rest_split a (b + 1) (by omega) (by omega), if_pos (by simp)]
  simp

theorem get_none (s : SrcBuf) (a b : ℕ) (h : ¬ (a ≤ b ∧ b < s.trueSize)) : s.get a b = none := by
  unfold get indexRangeSize; rw [if_neg h]; rfl

end SrcBuf

/-- The buffer `s` represents the document `d` over `text`. -/
structure Repr (text : List Char) (s : SrcBuf) (d : Doc) : Prop where
  buf : s.buf = text ++ [' ', ' ']
  orig : s.originalSize = text.length
  size : s.trueSize = d.size
  lo : text.length ≤ d.size
  hi : d.size ≤ text.length + 1
  pre : s.prependbuf = d.pre
  on : s.writeOk = d.on
  ins : ∀ i, d.ins i = if (s.extInd i).natAbs > 1 then s.extentAt i else []
  keep : ∀ i, d.keep i = decide (s.extInd i > 0)
  noMinus : ∀ i, s.extInd i ≠ -1
  outside : ∀ i, s.trueSize ≤ i → s.extInd i = 0
  atEnd : s.extInd text.length ≤ 0
  bound : ∀ i, (s.extInd i).natAbs > 1 → (s.extInd i).natAbs - 2 < s.extents.length ∧ (s.extInd i).natAbs - 2 ∉ s.free
  inj : ∀ i j, (s.extInd i).natAbs > 1 → (s.extInd i).natAbs = (s.extInd j).natAbs → i = j
  freeBound : ∀ f ∈ s.free, f < s.extents.length
  freeNodup : s.free.Nodup
  full : s.fullLength = s.prependbuf.length + ∑ i ∈ Finset.range s.trueSize, (s.cell i).length

namespace Repr

variable {text : List Char} {s : SrcBuf} {d : Doc}

theorem cell_eq (h : Repr text s d) (i : ℕ) : s.cell i = d.at' text i := by
  unfold SrcBuf.cell Doc.at'
  rw [h.ins i, h.keep i]
  by_cases hp : s.extInd i > 0
  · have hi : i < text.length := by
      by_contra hc
      have h1 := h.atEnd
      have h2 := h.outside
      have h3 := h.hi
      have h4 := h.size
      rcases Nat.eq_or_lt_of_le (not_lt.mp hc) with h5 | h5
      · rw [h5] at h1; omega
      · rw [h2 i (by omega)] at hp; omega
    rw [if_pos hp]
    simp only [hp, decide_true, if_true]
    congr 2
    unfold SrcBuf.charAt
    rw [h.buf, List.getD_eq_getElem?_getD, List.getD_eq_getElem?_getD, List.getElem?_append_left hi]
  · rw [if_neg hp]; simp [hp]

theorem range_eq (h : Repr text s d) (a b : ℕ) : (List.range' a (b - a)).flatMap s.cell = d.range text a b := by
  unfold Doc.range
  congr 1
  funext i
  exact h.cell_eq i

theorem create (text : List Char) : Repr text (SrcBuf.create text) (Doc.init text) := by
  have hz : ∀ i, ((SrcBuf.create text).extInd i = 1 ∧ i < text.length) ∨ ((SrcBuf.create text).extInd i = 0 ∧ text.length ≤ i) := by
    intro i
    simp only [SrcBuf.create]
    by_cases h : i < text.length
    · left; simp [h]
    · right; simp [h]; omega
  constructor
  · rfl
  · rfl
  · rfl
  · exact le_refl _
  · exact Nat.le_succ _
  · rfl
  · rfl
  · intro i; rcases hz i with ⟨h, _⟩ | ⟨h, _⟩ <;> rw [h] <;> rfl
  · intro i
    rcases hz i with ⟨h, h2⟩ | ⟨h, h2⟩ <;> rw [h] <;> simp [Doc.init] <;> omega
  · intro i; rcases hz i with ⟨h, _⟩ | ⟨h, _⟩ <;> rw [h] <;> decide
  · intro i h2
    have h3 : text.length ≤ i := h2
    rcases hz i with ⟨h, _⟩ | ⟨h, _⟩
    · omega
    · exact h
  · rcases hz text.length with ⟨h, _⟩ | ⟨h, _⟩ <;> omega
  · intro i h2; rcases hz i with ⟨h, _⟩ | ⟨h, _⟩ <;> rw [h] at h2 <;> simp at h2
  · intro i j h2; rcases hz i with ⟨h, _⟩ | ⟨h, _⟩ <;> rw [h] at h2 <;> simp at h2
  · intro f hf; simp [SrcBuf.create] at hf
  · exact List.nodup_nil
  · have : ∀ i ∈ Finset.range (SrcBuf.create text).trueSize, ((SrcBuf.create text).cell i).length = 1 := by
      intro i hi
      have hi2 : i < text.length := Finset.mem_range.mp hi
      rcases hz i with ⟨h, _⟩ | ⟨h, _⟩
      · simp [SrcBuf.cell, h]
      · omega
    rw [Finset.sum_congr rfl this]
    simp [SrcBuf.create]

/-- Changing the length at one place. -/
theorem sum_change (f g : ℕ → ℕ) (n i : ℕ) (hi : i < n) (h : ∀ j, j ≠ i → g j = f j) :
    (∑ j ∈ Finset.range n, g j) + f i = (∑ j ∈ Finset.range n, f j) + g i := by
  have hm : i ∈ Finset.range n := Finset.mem_range.mpr hi
  rw [← Finset.add_sum_erase _ g hm, ← Finset.add_sum_erase _ f hm,
    Finset.sum_congr rfl fun j hj => h j (Finset.ne_of_mem_erase hj)]
  ring

end Repr

end Hila
