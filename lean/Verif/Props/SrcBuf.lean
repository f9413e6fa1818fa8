import Verif.Lemmas.SrcBufTools

/-!
# C70: edits to the source text come out as they were made

The preprocessor keeps a piece of source text in a buffer and edits it by position in the original text. The specification (`Doc`) remembers, for every original
position, the text inserted before it and whether the original character is still there.
-/

namespace Hila

open SrcBuf

/-- **C70.** Whatever sequence of edits is made, the buffer refuses an edit exactly if it is out of range, its length is that of the edited text, the edited
text of every original range can be read back, and the whole text comes out as it was edited. Missing part: with prepended text the output may have one more
space at the end, see `C70_trailing_space`. -/
theorem C70_edits_partial (text : List Char) (es : List Edit) :
    ((create text).run es = none ↔ (Doc.init text).run text es = none) ∧
    ∀ s d, (create text).run es = some s → (Doc.init text).run text es = some d →
      s.fullLength = (d.text text).length ∧
      (s.dump = d.text text ∨ (d.pre ≠ [] ∧ s.dump = d.text text ++ [' '])) ∧
      (d.pre = [] → s.dump = d.text text) ∧
      (∀ a b, s.get a b = if a ≤ b ∧ b < d.size then some (d.range text a (b + 1)) else none) ∧
      (∀ a b, s.indexRangeSize a b = if a ≤ b ∧ b < d.size then some (d.range text a (b + 1)).length else none) := by
  rcases Repr.run es (Repr.create text) with ⟨h1, h2⟩ | ⟨s', d', h1, h2, h3⟩
  · refine ⟨by simp [h1, h2], ?_⟩
    intro s d h4; rw [h1] at h4; cases h4
  · refine ⟨by simp [h1, h2], ?_⟩
    intro s d h4 h5
    rw [h1] at h4; rw [h2] at h5
    obtain rfl := Option.some.inj h4
    obtain rfl := Option.some.inj h5
    refine ⟨h3.fullLength, h3.dump, ?_, ?_, ?_⟩
    · intro hp
      rcases h3.dump with h6 | ⟨h6, _⟩
      · exact h6
      · exact absurd hp h6
    · intro a b
      by_cases hc : a ≤ b ∧ b < d'.size
      · rw [if_pos hc]; exact h3.get a b hc.1 hc.2
      · rw [if_neg hc]; exact s'.get_none a b (by rw [h3.size]; exact hc)
    · intro a b
      by_cases hc : a ≤ b ∧ b < d'.size
      · rw [if_pos hc]; exact h3.indexRangeSize a b hc.1 hc.2
      · rw [if_neg hc]; unfold indexRangeSize; rw [if_neg (by rw [h3.size]; exact hc)]

/-- A replacement, insertions on both sides of an earlier one, text at the end: `a+b` becomes `x(y)z+w;`. -/
example : ((create "a+b".toList).run [.insert 0 "(".toList false, .insert 0 "x".toList true, .replace 2 2 "w".toList, .insert 0 "y)".toList false,
      .remove 0 0, .insert 0 "x(y)z".toList false, .append ";".toList]).map (fun s => (s.dump, s.fullLength, s.extents.length)) =
    some ("x(y)z+w;".toList, 8, 3) := by decide +kernel

/-- **C70.** At every time every reference to an inserted text is in range, and no two positions share one. -/
theorem C70_extents (text : List Char) (es : List Edit) (s : SrcBuf) (h : (create text).run es = some s) (i : ℕ) (hi : (s.extInd i).natAbs > 1) :
    (s.extInd i).natAbs - 2 < s.extents.length ∧ ∀ j, j ≠ i → (s.extInd j).natAbs ≠ (s.extInd i).natAbs := by
  rcases Repr.run es (Repr.create text) with ⟨h1, _⟩ | ⟨s', d', h1, _, h3⟩
  · rw [h1] at h; cases h
  · rw [h1] at h
    obtain rfl := Option.some.inj h
    exact ⟨(h3.bound i hi).1, fun j hj hc => hj (h3.inj j i (by omega) hc)⟩

/-- **C70 fails for prepended text.** If text has been prepended and the last character removed, the output has one space too many at the end. -/
theorem C70_trailing_space : ∃ text es s d, (create text).run es = some s ∧ (Doc.init text).run text es = some d ∧ s.dump ≠ d.text text := by
  refine ⟨['a', 'b'], [.remove 1 1, .prepend ['x']], _, _, rfl, rfl, ?_⟩
  decide +kernel

/-- **C70.** The indentation that is added after the newlines of an inserted text is the leading white space of the original line, up to the position of the
insertion. -/
theorem C70_indent (text : List Char) (i : ℕ) (hi : i ≤ text.length) (head line : List Char) (h : text.take i = head ++ line) (hl : '\n' ∉ line)
    (hh : head = [] ∨ head.getLast? = some '\n') : indentAt (create text).buf i = line.takeWhile isSpace := by
  unfold indentAt
  have : (create text).buf.take i = text.take i := by
    show (text ++ [' ', ' ']).take i = _
    rw [List.take_append_of_le_length hi]
  rw [this, lastLine _ head line h hl hh]

example : ((create "if (x)\n  y;".toList).insert 9 "{\nz".toList true true).map dump = some "if (x)\n  {\n  zy;".toList := by decide +kernel

/-- **C70.** A copy of a part of an edited buffer has the edited text of that part. -/
theorem C70_copy (text : List Char) (es : List Edit) (s : SrcBuf) (h : (create text).run es = some s) (k m : ℕ) (hm : 0 < m) (hkm : k + m ≤ text.length) :
    ∃ s', s.copyFromRange k m = some s' ∧ s.get k (k + m - 1) = some s'.dump := by
  rcases Repr.run es (Repr.create text) with ⟨h1, _⟩ | ⟨s1, d, h1, _, h3⟩
  · rw [h1] at h; cases h
  · rw [h1] at h
    obtain rfl := Option.some.inj h
    obtain ⟨s', d', c1, c2, c3, c4, c5⟩ := h3.copyFromRange k m hkm
    refine ⟨s', c1, ?_⟩
    have hlo := h3.lo
    rw [h3.get k (k + m - 1) (by omega) (by omega)]
    rcases c2.dump with h6 | ⟨h6, _⟩
    · rw [h6]
      congr 1
      unfold Doc.text Doc.range
      rw [c3, c4, show k + m - 1 + 1 - k = m by omega, Nat.sub_zero, List.nil_append, ← List.range_eq_range']
      rw [List.range'_eq_map_range, List.flatMap_map]
      apply List.flatMap_congr
      intro j hj
      have hj2 : j < m := List.mem_range.mp hj
      obtain ⟨e1, e2⟩ := c5 j hj2
      show d.at' text (k + j) = _
      unfold Doc.at'
      rw [e1, e2, Nat.add_comm j k]
      congr 3
      rw [List.getD_eq_getElem?_getD, List.getD_eq_getElem?_getD, List.getElem?_take_of_lt hj2, List.getElem?_drop, Nat.add_comm]
    · exact absurd c3 h6

example : (((create "f(a, b)".toList).run [.replace 2 2 "xx".toList, .remove 3 3]).bind fun s => s.copyFromRange 1 4).map dump = some "(xx ".toList := by
  decide +kernel

/-- A text with a comment mark at the start of every new line. -/
def commented (t : List Char) : List Char := t.flatMap fun c => if c = '\n' then ['\n', '/', '/', ' '] else [c]

/-- **C70.** Commenting out an unedited range that does not end with a newline: it begins on a new line with the comment mark, every further line of it begins with
the comment mark, the text that follows begins on a new line, and nothing else changes. Missing part: `C70_comment_wrong`. -/
theorem C70_comment_partial (text : List Char) (es : List Edit) (s : SrcBuf) (d : Doc) (h : (create text).run es = some s)
    (hd : (Doc.init text).run text es = some d) (hon : d.on = true) (a b : ℕ) (ha : 0 < a) (hab : a ≤ b) (hb : b < text.length)
    (hins : ∀ j, a ≤ j → j ≤ b + 1 → d.ins j = []) (hkeep : ∀ j, a ≤ j → j ≤ b → d.keep j = true) (hnl : text.getD b ' ' ≠ '\n') :
    ∃ s', s.commentRange a b = some s' ∧ ∃ ind tail, (∀ c ∈ ind, isSpace c = true) ∧
      s'.get a b = some ('\n' :: (ind ++ ['/', '/', ' ']) ++ commented ((text.drop a).take (b + 1 - a))) ∧
      s'.get (b + 1) (b + 1) = some ('\n' :: tail) ∧
      ∀ i, i < d.size → i < a ∨ b + 1 < i → s'.get i i = s.get i i := by
  rcases Repr.run es (Repr.create text) with ⟨h1, _⟩ | ⟨s1, d1, h1, h2, h3⟩
  · rw [h1] at h; cases h
  · rw [h1] at h
    rw [h2] at hd
    obtain rfl := Option.some.inj h
    obtain rfl := Option.some.inj hd
    obtain ⟨s', d', c1, c2, c3, c4, c5, c6, c7⟩ := h3.commentRange (by rw [h3.on]; exact hon) a b ha hab hb
    have hlo := h3.lo
    refine ⟨s', c1, indentAt s1.buf a, indentAt s1.buf (b + 1) ++ (if d1.keep (b + 1) then [text.getD (b + 1) ' '] else []), indentAt_space _ _, ?_, ?_, ?_⟩
    · rw [c2.get a b hab (by omega)]
      congr 1
      have key : ∀ n, a + n ≤ b → d'.range text a (a + n + 1) ++ (if text.getD (a + n) ' ' = '\n' then ['/', '/', ' '] else []) =
          '\n' :: (indentAt s1.buf a ++ ['/', '/', ' ']) ++ commented ((text.drop a).take (n + 1)) := by
        intro n
        induction n with
        | zero =>
          intro _
          unfold Doc.range
          rw [show a + 0 + 1 - a = 1 by omega]
          have h4 : (text.drop a).take (0 + 1) = [text.getD a ' '] := by
            rw [List.take_one, List.head?_drop, List.getD_eq_getElem?_getD, List.getElem?_eq_getElem (by omega)]; rfl
          rw [h4]
          simp only [List.range'_one, List.flatMap_cons, List.flatMap_nil, List.append_nil, commented, Nat.add_zero]
          unfold Doc.at'
          rw [c5 a, c3, hkeep a (le_refl _) hab, if_neg (show ¬ a = b + 1 by omega), if_pos rfl, if_neg (by omega), hins a (le_refl _) (by omega)]
          by_cases hc : text.getD a ' ' = '\n'
          · rw [if_pos hc, if_pos hc, hc]; simp
          · rw [if_neg hc, if_neg hc]; simp
        | succ n ih =>
          intro hn
          have ih := ih (by omega)
          have h4 : d'.range text a (a + (n + 1) + 1) = d'.range text a (a + n + 1) ++ d'.at' text (a + (n + 1)) := by
            unfold Doc.range
            rw [show a + (n + 1) + 1 - a = (n + 1) + 1 by omega, show a + n + 1 - a = n + 1 by omega, List.range'_1_concat, List.flatMap_append]
            simp
          have h5 : (text.drop a).take (n + 1 + 1) = (text.drop a).take (n + 1) ++ [text.getD (a + (n + 1)) ' '] := by
            rw [List.take_add_one, List.getElem?_drop, List.getElem?_eq_getElem (by omega), List.getD_eq_getElem?_getD, List.getElem?_eq_getElem (by omega)]
            rfl
          have h6 : commented ((text.drop a).take (n + 1) ++ [text.getD (a + (n + 1)) ' ']) = commented ((text.drop a).take (n + 1)) ++
              (if text.getD (a + (n + 1)) ' ' = '\n' then ['\n', '/', '/', ' '] else [text.getD (a + (n + 1)) ' ']) := by
            unfold commented; rw [List.flatMap_append]; simp
          rw [h4, h5, h6, ← List.append_assoc, ← ih]
          have h7 : d'.at' text (a + (n + 1)) = (if text.getD (a + n) ' ' = '\n' then ['/', '/', ' '] else []) ++ [text.getD (a + (n + 1)) ' '] := by
            unfold Doc.at'
            rw [c5, c3, hkeep _ (by omega) (by omega), if_neg (show ¬ a + (n + 1) = b + 1 by omega), if_neg (show ¬ a + (n + 1) = a by omega), hins _ (by omega) (by omega)]
            rw [show a + (n + 1) - 1 = a + n by omega]
            simp only [if_true, List.nil_append, List.append_nil]
            congr 1
            refine if_congr ?_ rfl rfl
            exact ⟨fun h => h.2.2, fun h => ⟨by omega, by omega, h⟩⟩
          rw [h7]
          by_cases hc : text.getD (a + (n + 1)) ' ' = '\n'
          · rw [if_pos hc, if_pos hc, hc]; simp
          · rw [if_neg hc, if_neg hc]; simp
      have h8 := key (b - a) (by omega)
      rw [show a + (b - a) = b by omega, if_neg hnl, List.append_nil, show b - a + 1 = b + 1 - a by omega] at h8
      exact h8
    · rw [c2.get (b + 1) (b + 1) (le_refl _) (by omega)]
      congr 1
      unfold Doc.range
      rw [show b + 1 + 1 - (b + 1) = 1 by omega]
      simp only [List.range'_one, List.flatMap_cons, List.flatMap_nil, List.append_nil]
      unfold Doc.at'
      rw [c5, c3, if_pos rfl, if_neg (show ¬ b + 1 = a by omega), hins _ (by omega) (le_refl _), if_neg (by rintro ⟨_, _, h9⟩; rw [show b + 1 - 1 = b by omega] at h9; exact hnl h9)]
      simp
    · intro i hi hor
      rw [c2.get i i (le_refl _) (by omega), h3.get i i (le_refl _) hi]
      congr 1
      unfold Doc.range
      rw [show i + 1 - i = 1 by omega]
      simp only [List.range'_one, List.flatMap_cons, List.flatMap_nil, List.append_nil]
      unfold Doc.at'
      rw [c5, c3, if_neg (show ¬ i = b + 1 by omega), if_neg (show ¬ i = a by omega), if_neg (by omega)]
      rfl

example : ((create "f();\n  int a\n   =1;\n g();".toList).commentRange 7 18).map dump = some "f();\n  \n  // int a\n//    =1;\n   \n g();".toList := by decide +kernel

/-- **C70 fails for a range that ends with a newline.** Then the mark of the newline goes before what follows the range, which is thus commented out. -/
theorem C70_comment_wrong : ((create "p x\ny".toList).commentRange 2 3).map dump = some "p \n// x\n\n// y".toList := by decide +kernel

/-- **C70.** Removing an argument with its comma: the nearest comma before it, if only white space lies between; else the nearest comma after it; else just the
argument. Everything between the removed ends disappears, nothing else changes. -/
theorem C70_remove_with_comma (text : List Char) (es : List Edit) (s : SrcBuf) (d : Doc) (h : (create text).run es = some s)
    (hd : (Doc.init text).run text es = some d) (hon : d.on = true) (a b : ℕ) (hab : a ≤ b) (hb : b < text.length) :
    ∃ s' lo hi, s.removeWithComma a b = some s' ∧ (d.pre = [] → s'.dump = (d.remove lo hi).text text) ∧
      (∀ i j, i ≤ j → j < d.size → s'.get i j = some ((d.remove lo hi).range text i (j + 1))) ∧
      ((lo < a ∧ hi = b ∧ text.getD lo ' ' = ',' ∧ ∀ j, lo < j → j < a → isSpace (text.getD j ' ') = true) ∨
       (lo = a ∧ b < hi ∧ hi < text.length ∧ text.getD hi ' ' = ',' ∧ (∀ j, b < j → j < hi → isSpace (text.getD j ' ') = true) ∧
          ¬ ∃ k, k < a ∧ text.getD k ' ' = ',' ∧ ∀ j, k < j → j < a → isSpace (text.getD j ' ') = true) ∨
       (lo = a ∧ hi = b ∧
          (¬ ∃ k, k < a ∧ text.getD k ' ' = ',' ∧ ∀ j, k < j → j < a → isSpace (text.getD j ' ') = true) ∧
          ¬ ∃ k, b < k ∧ k < text.length ∧ text.getD k ' ' = ',' ∧ ∀ j, b < j → j < k → isSpace (text.getD j ' ') = true)) := by
  rcases Repr.run es (Repr.create text) with ⟨h1, _⟩ | ⟨s1, d1, h1, h2, h3⟩
  · rw [h1] at h; cases h
  · rw [h1] at h
    rw [h2] at hd
    obtain rfl := Option.some.inj h
    obtain rfl := Option.some.inj hd
    obtain ⟨s', lo, hi, c1, c2, c3⟩ := h3.removeWithComma (by rw [h3.on]; exact hon) a b hab hb
    refine ⟨s', lo, hi, c1, ?_, ?_, c3⟩
    · intro hp
      rcases c2.dump with h6 | ⟨h6, _⟩
      · exact h6
      · exact absurd hp h6
    · intro i j hij hj; exact c2.get i j hij hj

example : ((create "f(a, b , c)".toList).removeWithComma 5 5).map dump = some "f(a , c)".toList ∧
    ((create "f(a, b , c)".toList).removeWithComma 2 2).map dump = some "f( b , c)".toList ∧ ((create "f( a )".toList).removeWithComma 3 3).map dump = some "f(  )".toList := by
  decide +kernel

end Hila
