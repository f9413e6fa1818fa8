import Verif.Lemmas.StrOps

/-!
# Replacing the number type, and the command line
-/

namespace Hila

namespace StrOps

open SrcBuf

theorem occursAt_append (a w pat : List Char) (k : ℕ) : OccursAt (a ++ w) pat (a.length + k) ↔ OccursAt w pat k := by
  unfold OccursAt
  rw [List.drop_append, List.drop_eq_nil_of_le (by omega), List.nil_append, Nat.add_sub_cancel_left, List.length_append]
  constructor <;> rintro ⟨h1, h2⟩ <;> exact ⟨by omega, h2⟩

theorem occursAt_infix (s pat : List Char) (i : ℕ) (h : OccursAt s pat i) : pat <:+: s := h.2.isInfix.trans (List.drop_suffix i s).isInfix

theorem infix_occursAt (s pat : List Char) (h : pat <:+: s) : ∃ i, OccursAt s pat i := by
  obtain ⟨a, b, rfl⟩ := h
  exact ⟨a.length, by simp, by rw [List.append_assoc, List.drop_left]; exact List.prefix_append _ _⟩

/-- Text that ends in a character which is not part of a word, or is empty. -/
def EndsOff (u : List Char) : Prop := ∀ c, u.getLast? = some c → isWordChar c = false

/-- Text that begins with a character which is not part of a word, or is empty. -/
def BeginsOff (u : List Char) : Prop := ∀ c, u.head? = some c → isWordChar c = false

theorem prefix_split (old u v : List Char) (h : old <+: u ++ v) : old <+: u ∨ ∃ l, old = u ++ l ∧ l <+: v := by
  rcases List.prefix_or_prefix_of_prefix h (List.prefix_append u v) with h1 | ⟨l, h1⟩
  · exact Or.inl h1
  · refine Or.inr ⟨l, h1.symm, ?_⟩
    rw [← h1] at h
    exact (List.prefix_append_right_inj u).mp h

/-- The first occurrence behind a text that does not contain the word and does not end in a word. -/
theorem find_first (a y old t : List Char) (hw : ∀ c ∈ old, isWordChar c = true) (hy : ¬ old <:+: y) (he : EndsOff y) :
    find (a ++ (y ++ (old ++ t))) old a.length = some (a.length + y.length) := by
  rw [find_spec]
  refine ⟨?_, by omega, ?_⟩
  · rw [occursAt_append]
    exact ⟨by simp, by rw [List.drop_left]; exact List.prefix_append _ _⟩
  · intro j h1 h2 hc
    obtain ⟨k, rfl⟩ : ∃ k, j = a.length + k := ⟨j - a.length, by omega⟩
    rw [occursAt_append] at hc
    have hk : k < y.length := by omega
    have h3 := hc.2
    rw [List.drop_append_of_le_length (by omega)] at h3
    rcases prefix_split _ _ _ h3 with h4 | ⟨l, h4, _⟩
    · exact hy (h4.isInfix.trans (List.drop_suffix k y).isInfix)
    · have hne : y.drop k ≠ [] := by intro h; have := congrArg List.length h; rw [List.length_drop, List.length_nil] at this; omega
      have h5 : (y.drop k).getLast hne ∈ old := by rw [h4]; exact List.mem_append_left _ (List.getLast_mem hne)
      have h6 := he ((y.drop k).getLast hne) (by rw [List.getLast_drop, List.getLast?_eq_some_getLast])
      rw [hw _ h5] at h6
      cases h6

/-- No occurrence across a place where no word continues. -/
theorem not_infix_append (old u v : List Char) (hw : ∀ c ∈ old, isWordChar c = true) (hu : ¬ old <:+: u) (hv : ¬ old <:+: v) (hb : BeginsOff v) :
    ¬ old <:+: u ++ v := by
  intro h
  obtain ⟨j, h1, h2⟩ := infix_occursAt _ _ h
  by_cases hj : j ≤ u.length
  · rw [List.drop_append_of_le_length hj] at h2
    rcases prefix_split _ _ _ h2 with h3 | ⟨l, h3, h4⟩
    · exact hu (h3.isInfix.trans (List.drop_suffix j u).isInfix)
    · cases l with
      | nil => apply hu; rw [h3, List.append_nil]; exact (List.drop_suffix j u).isInfix
      | cons c r =>
        obtain ⟨t, ht⟩ := h4
        have h5 := hb c (by rw [← ht]; rfl)
        rw [hw c (by rw [h3]; simp)] at h5
        cases h5
  · obtain ⟨k, rfl⟩ : ∃ k, j = u.length + k := ⟨j - u.length, by omega⟩
    exact hv (occursAt_infix _ _ _ ((occursAt_append u v old k).mp ⟨h1, h2⟩))

theorem endsOff_append (u v : List Char) (hv : EndsOff v) (hne : v ≠ []) : EndsOff (u ++ v) := by
  intro c hc
  rw [List.getLast?_append_of_ne_nil _ hne] at hc
  exact hv c hc

theorem isWordChar_nul : isWordChar (Char.ofNat 0) = false := by decide

/-- A whole word is found. -/
theorem findWord_first (a y old t : List Char) (hw : ∀ c ∈ old, isWordChar c = true) (hy : ¬ old <:+: y) (he : EndsOff y) (ha : a = [] ∨ y ≠ [])
    (ht : BeginsOff t) : findWord (a ++ (y ++ (old ++ t))) old a.length = some (a.length + y.length) := by
  unfold findWord
  rw [find_first a y old t hw hy he]
  dsimp only
  rw [if_neg, if_neg]
  · rintro ⟨_, h⟩
    have : (a ++ (y ++ (old ++ t))).getD (a.length + y.length + old.length) (Char.ofNat 0) = t.getD 0 (Char.ofNat 0) := by
      rw [List.getD_eq_getElem?_getD, List.getD_eq_getElem?_getD, show a ++ (y ++ (old ++ t)) = (a ++ y ++ old) ++ t by simp,
        List.getElem?_append_right (by simp; omega)]
      congr 2; simp; omega
    rw [this] at h
    cases t with
    | nil => rw [List.getD_nil, isWordChar_nul] at h; cases h
    | cons c r => rw [List.getD_cons_zero, ht c rfl] at h; cases h
  · rintro ⟨h1, h2⟩
    by_cases hy0 : y = []
    · rcases ha with rfl | h
      · subst hy0; simp at h1
      · exact h hy0
    · have hl : 0 < y.length := List.length_pos_iff.mpr hy0
      have : (a ++ (y ++ (old ++ t))).getD (a.length + y.length - 1) (Char.ofNat 0) = y.getLast hy0 := by
        rw [List.getD_eq_getElem?_getD, List.getElem?_append_right (by omega), List.getElem?_append_left (by omega),
          List.getLast_eq_getElem, show a.length + y.length - 1 - a.length = y.length - 1 by omega, List.getElem?_eq_getElem (by omega)]
        rfl
      rw [this, he _ (List.getLast?_eq_some_getLast hy0)] at h2
      cases h2

theorem findWord_absent (a y old : List Char) (hy : ¬ old <:+: y) : findWord (a ++ y) old a.length = none := by
  have : find (a ++ y) old a.length = none := by
    rw [find_none]
    intro j hj hc
    obtain ⟨k, rfl⟩ : ∃ k, j = a.length + k := ⟨j - a.length, by omega⟩
    exact hy (occursAt_infix _ _ _ ((occursAt_append a y old k).mp hc))
  unfold findWord
  rw [this]

/-- The pieces between the occurrences of the type: each begins with a character that does not continue a word, all but the last end in such a character. -/
def Between (old : List Char) : List (List Char) → Prop
  | [] => True
  | [x] => BeginsOff x ∧ ¬ old <:+: x
  | x :: y :: r => x ≠ [] ∧ BeginsOff x ∧ EndsOff x ∧ ¬ old <:+: x ∧ Between old (y :: r)

theorem vectorizeLoop_spec (old new : List Char) (hne : old ≠ []) (hw : ∀ c ∈ old, isWordChar c = true) (hn : ¬ old <:+: new) :
    ∀ (xs : List (List Char)) (fuel : ℕ) (a y : List Char), xs.length < fuel → Between old xs → ¬ old <:+: y → (xs ≠ [] → EndsOff y ∧ (a = [] ∨ y ≠ [])) →
      vectorizeLoop old new fuel (a ++ (y ++ xs.flatMap (old ++ ·))) a.length = a ++ (y ++ xs.flatMap (new ++ ·))
  | [], fuel + 1, a, y, _, _, hy, _ => by
    rw [vectorizeLoop, List.flatMap_nil, List.append_nil, findWord_absent a y old hy]; simp
  | x :: r, fuel + 1, a, y, hf, hb, hy, he => by
    obtain ⟨he, ha⟩ := he (by simp)
    have hx : BeginsOff x ∧ ¬ old <:+: x ∧ Between old r ∧ (r ≠ [] → x ≠ [] ∧ EndsOff x) := by
      cases r with
      | nil => exact ⟨hb.1, hb.2, trivial, by simp⟩
      | cons z r => exact ⟨hb.2.1, hb.2.2.2.1, hb.2.2.2.2, fun _ => ⟨hb.1, hb.2.2.1⟩⟩
    obtain ⟨x1, x2, x3, x4⟩ := hx
    have hbt : BeginsOff (x ++ r.flatMap (old ++ ·)) := by
      cases x with
      | nil =>
        cases r with
        | nil => intro c hc; simp at hc
        | cons z r => exact absurd rfl (x4 (by simp)).1
      | cons c x => exact fun d hd => x1 d hd
    rw [vectorizeLoop, List.flatMap_cons, List.append_assoc old x, findWord_first a y old _ hw hy he ha hbt]
    dsimp only
    have e1 : (a ++ (y ++ (old ++ (x ++ r.flatMap (old ++ ·))))).take (a.length + y.length) = a ++ y := by
      rw [← List.append_assoc a y, ← List.length_append, List.take_left]
    have e2 : (a ++ (y ++ (old ++ (x ++ r.flatMap (old ++ ·))))).drop (a.length + y.length + old.length) = x ++ r.flatMap (old ++ ·) := by
      rw [← List.append_assoc a y, ← List.append_assoc (a ++ y) old, ← List.length_append, ← List.length_append, List.drop_left]
    rw [e1, e2]
    have := vectorizeLoop_spec old new hne hw hn r fuel (a ++ y) (new ++ x) (by simp at hf; omega) x3 (not_infix_append old new x hw hn x2 x1)
      (fun hr => ⟨endsOff_append new x (x4 hr).2 (x4 hr).1, Or.inr (by simp [(x4 hr).1])⟩)
    rw [List.length_append] at this
    rw [List.flatMap_cons]
    simp only [List.append_assoc] at this ⊢
    exact this

theorem moveLoop_spec : ∀ (fuel : ℕ) (k r t : List (List Char)), r.length < fuel →
    moveLoop fuel k.length (k.length + r.length) (k ++ (r ++ t)) = k ++ ((splitArgs r).1 ++ (t ++ (splitArgs r).2))
  | 0, k, r, t, h => by omega
  | fuel + 1, k, [], t, _ => by rw [moveLoop, if_neg (by simp)]; simp [splitArgs]
  | fuel + 1, k, [a], t, hf => by
    have hg : (k ++ ([a] ++ t)).getD k.length [] = a := by simp [List.getD_eq_getElem?_getD]
    rw [moveLoop, if_pos (by simp)]
    dsimp only
    rw [hg, if_neg (by simp), splitArgs]
    by_cases h : a.take 2 = ['-', 'D'] ∨ a.take 2 = ['-', 'I']
    · rw [if_pos h, if_pos h]
      have := moveLoop_spec fuel k [] (t ++ [a]) (by simp at hf ⊢; omega)
      simp only [splitArgs, List.length_nil, List.nil_append, List.append_nil, List.length_singleton, Nat.add_sub_cancel, Nat.add_zero] at this ⊢
      rw [List.take_left, show k ++ ([a] ++ t) = (k ++ [a]) ++ t by simp, show k.length + 1 = (k ++ [a]).length by simp, List.drop_left, List.append_assoc]
      exact this
    · rw [if_neg h, if_neg h]
      have := moveLoop_spec fuel (k ++ [a]) [] t (by simp at hf ⊢; omega)
      simp only [splitArgs, List.length_append, List.length_nil, List.nil_append, List.append_nil, List.length_singleton, Nat.add_zero, List.append_assoc] at this ⊢
      exact this
  | fuel + 1, k, a :: b :: r, t, hf => by
    have hg : (k ++ (a :: b :: r ++ t)).getD k.length [] = a := by simp [List.getD_eq_getElem?_getD]
    have hg2 : (k ++ (a :: b :: r ++ t)).getD (k.length + 1) [] = b := by simp [List.getD_eq_getElem?_getD]
    have ht : (k ++ (a :: b :: r ++ t)).take k.length = k := List.take_left
    have hd1 : (k ++ (a :: b :: r ++ t)).drop (k.length + 1) = b :: r ++ t := by simp
    have hd2 : (k ++ (a :: b :: r ++ t)).drop (k.length + 2) = r ++ t := by simp
    rw [moveLoop, if_pos (by simp)]
    dsimp only
    rw [hg, hg2, ht, hd1, hd2, splitArgs]
    by_cases h1 : a = ['-', 'D'] ∨ a = ['-', 'I']
    · rw [if_pos ⟨by simp, h1⟩, if_pos h1]
      have := moveLoop_spec fuel k r (t ++ [a, b]) (by simp at hf ⊢; omega)
      rw [show k.length + (a :: b :: r).length - 2 = k.length + r.length by simp only [List.length_cons]; omega]
      simp only [List.append_assoc, List.cons_append, List.nil_append] at this ⊢
      exact this
    · rw [if_neg (fun h => h1 h.2), if_neg h1]
      by_cases h : a.take 2 = ['-', 'D'] ∨ a.take 2 = ['-', 'I']
      · rw [if_pos h, if_pos h]
        have := moveLoop_spec fuel k (b :: r) (t ++ [a]) (by simp at hf ⊢; omega)
        rw [show k.length + (a :: b :: r).length - 1 = k.length + (b :: r).length by simp]
        simp only [List.append_assoc, List.cons_append, List.nil_append] at this ⊢
        exact this
      · rw [if_neg h, if_neg h]
        have := moveLoop_spec fuel (k ++ [a]) (b :: r) t (by simp at hf ⊢; omega)
        rw [show k.length + (a :: b :: r).length = (k ++ [a]).length + (b :: r).length by simp; omega, show k.length + 1 = (k ++ [a]).length by simp]
        simp only [List.append_assoc, List.cons_append, List.nil_append] at this ⊢
        exact this

/-- The search for the last `--`. -/
theorem lastDash (l : List (List Char)) : ∀ n, n ≤ l.length →
    (List.range n).foldl (fun r i => if l.getD i [] = ['-', '-'] then some i else r) none =
      ((List.range n).filter fun i => decide (l.getD i [] = ['-', '-'])).getLast?
  | 0, _ => rfl
  | n + 1, h => by
    rw [List.range_succ, List.foldl_append, List.filter_append, lastDash l n (by omega)]
    by_cases hn : l.getD n [] = ['-', '-']
    · rw [List.foldl_cons, if_pos hn, List.filter_cons_of_pos (by simpa using hn)]; simp
    · rw [List.foldl_cons, if_neg hn, List.filter_cons_of_neg (by simpa using hn)]; simp

theorem lastDash_split (pre post : List (List Char)) (h : ['-', '-'] ∉ post) :
    (List.range (pre ++ ['-', '-'] :: post).length).foldl (fun r i => if (pre ++ ['-', '-'] :: post).getD i [] = ['-', '-'] then some i else r) none = some pre.length := by
  rw [lastDash _ _ (le_refl _)]
  have e : (pre ++ ['-', '-'] :: post).length = pre.length + 1 + post.length := by simp; omega
  rw [e, List.range_add, List.filter_append, List.range_succ, List.filter_append]
  have h1 : ((List.range post.length).map (pre.length + 1 + ·)).filter (fun i => decide ((pre ++ ['-', '-'] :: post).getD i [] = ['-', '-'])) = [] := by
    rw [List.filter_eq_nil_iff]
    intro i hi
    obtain ⟨k, hk, rfl⟩ := List.mem_map.mp hi
    rw [List.mem_range] at hk
    have : (pre ++ ['-', '-'] :: post).getD (pre.length + 1 + k) [] = post[k] := by
      rw [List.getD_eq_getElem?_getD, List.getElem?_append_right (by omega), show pre.length + 1 + k - pre.length = k + 1 by omega, List.getElem?_cons_succ,
        List.getElem?_eq_getElem hk]; rfl
    rw [this, decide_eq_true_eq]
    intro hc; exact h (hc ▸ List.getElem_mem hk)
  have h2 : (pre ++ ['-', '-'] :: post).getD pre.length [] = ['-', '-'] := by simp [List.getD_eq_getElem?_getD]
  rw [h1, List.append_nil, List.filter_cons_of_pos (by simpa using h2)]
  simp

theorem lastDash_none (l : List (List Char)) (h : ['-', '-'] ∉ l) :
    (List.range l.length).foldl (fun r i => if l.getD i [] = ['-', '-'] then some i else r) none = none := by
  rw [lastDash _ _ (le_refl _), List.getLast?_eq_none_iff, List.filter_eq_nil_iff]
  intro i hi
  rw [List.mem_range] at hi
  rw [List.getD_eq_getElem?_getD, List.getElem?_eq_getElem hi, decide_eq_true_eq]
  intro hc; exact h (hc ▸ List.getElem_mem hi)

end StrOps

end Hila
