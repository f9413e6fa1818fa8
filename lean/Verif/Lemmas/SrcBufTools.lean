import Verif.Lemmas.SrcBufEdit
import Mathlib.Data.List.TakeWhile

/-! # Comments, copies and argument lists in the source buffer -/

namespace Hila

namespace SrcBuf

theorem lastLine (l head line : List Char) (h : l = head ++ line) (hl : '\n' ∉ line) (hh : head = [] ∨ head.getLast? = some '\n') :
    (l.reverse.takeWhile (fun c => decide (c ≠ '\n'))).reverse = line := by
  subst h
  rw [List.reverse_append, List.takeWhile_append_of_pos]
  · rcases hh with rfl | hh
    · simp
    · have : head.reverse.takeWhile (fun c => decide (c ≠ '\n')) = [] := by
        rw [← List.head?_reverse] at hh
        cases hr : head.reverse with
        | nil => rfl
        | cons x xs =>
          rw [hr] at hh
          have : x = '\n' := by simpa using hh
          simp [this]
      rw [this, List.append_nil, List.reverse_reverse]
  · intro c hc
    rw [List.mem_reverse] at hc
    simp only [decide_eq_true_eq]
    rintro rfl; exact hl hc

theorem indentAt_space (buf : List Char) (i : ℕ) : ∀ c ∈ indentAt buf i, isSpace c = true := by
  intro c hc
  exact List.mem_takeWhile_imp hc

end SrcBuf

namespace Repr

variable {text : List Char} {s : SrcBuf} {d : Doc}

theorem charAt (h : Repr text s d) (i : ℕ) (hi : i < text.length) : s.charAt i = text.getD i ' ' := by
  unfold SrcBuf.charAt
  rw [h.buf, List.getD_eq_getElem?_getD, List.getD_eq_getElem?_getD, List.getElem?_append_left hi]

/-- The comment marks after the newlines of a range. -/
theorem commentMarks (h : Repr text s d) (hon : s.writeOk = true) (a : ℕ) : ∀ n, a + n ≤ text.length →
    ∃ s' d', (List.range' a n).foldlM (fun (s : SrcBuf) i => if s.charAt i = '\n' then s.insert (i + 1) ['/', '/', ' '] true true else some s) s = some s' ∧
      Repr text s' d' ∧ s'.writeOk = true ∧ d'.keep = d.keep ∧ d'.pre = d.pre ∧
      (∀ j, d'.ins j = (if a < j ∧ j ≤ a + n ∧ text.getD (j - 1) ' ' = '\n' then ['/', '/', ' '] else []) ++ d.ins j) ∧
      d.size ≤ d'.size := by
  intro n
  induction n with
  | zero =>
    intro _
    refine ⟨s, d, rfl, h, hon, rfl, rfl, ?_, le_refl _⟩
    intro j; rw [if_neg (by omega)]; rfl
  | succ n ih =>
    intro hn
    obtain ⟨s', d', h1, h2, h3, h4, h5, h6, h7⟩ := ih (by omega)
    rw [List.range'_1_concat, List.foldlM_append, h1]
    simp only [Option.bind_eq_bind, Option.bind_some, List.foldlM_cons, List.foldlM_nil]
    rw [h2.charAt (a + n) (by omega)]
    by_cases hc : text.getD (a + n) ' ' = '\n'
    · rw [if_pos hc]
      obtain ⟨s'', h8, h9⟩ := h2.insert h3 (a + n + 1) (by omega) ['/', '/', ' '] true true
      rw [h8]
      have hno : (true && ['/', '/', ' '].contains '\n') = false := by decide
      rw [hno, if_neg (show ¬ false = true by decide)] at h9
      refine ⟨s'', _, rfl, h9, ?_, h4, h5, ?_, ?_⟩
      · rw [h9.on]; show d'.on = true; rw [← h2.on, h3]
      · intro j
        show (if j = a + n + 1 then _ else d'.ins j) = _
        by_cases hj : j = a + n + 1
        · have n1 : ¬ (a < a + n + 1 ∧ a + n + 1 ≤ a + n ∧ text.getD (a + n + 1 - 1) ' ' = '\n') := by
            rintro ⟨_, h, _⟩; omega
          have n2 : a < a + n + 1 ∧ a + n + 1 ≤ a + (n + 1) ∧ text.getD (a + n + 1 - 1) ' ' = '\n' := by
            refine ⟨by omega, by omega, ?_⟩
            rw [show a + n + 1 - 1 = a + n by omega]; exact hc
          rw [if_pos hj, h6 (a + n + 1), if_neg n1, hj, if_pos n2]
          rfl
        · rw [if_neg hj, h6 j]
          congr 1
          refine if_congr ?_ rfl rfl
          constructor
          · rintro ⟨h10, h11, h12⟩; exact ⟨h10, by omega, h12⟩
          · rintro ⟨h10, h11, h12⟩; exact ⟨h10, by omega, h12⟩
      · show d.size ≤ if a + n + 1 = text.length then text.length + 1 else d'.size
        have := h.hi
        split <;> omega
    · rw [if_neg hc]
      refine ⟨s', d', rfl, h2, h3, h4, h5, ?_, h7⟩
      intro j
      rw [h6 j]
      congr 1
      refine if_congr ?_ rfl rfl
      constructor
      · rintro ⟨h10, h11, h12⟩; exact ⟨h10, by omega, h12⟩
      · rintro ⟨h10, h11, h12⟩
        refine ⟨h10, ?_, h12⟩
        by_contra hlt
        have : j - 1 = a + n := by omega
        rw [this] at h12; exact hc h12

theorem indentText_nl (ind : List Char) : SrcBuf.indentText ind ['\n'] = '\n' :: ind := by simp [SrcBuf.indentText]

theorem indentText_comment (ind : List Char) : SrcBuf.indentText ind ['\n', '/', '/', ' '] = '\n' :: (ind ++ ['/', '/', ' ']) := by
  simp [SrcBuf.indentText]

/-- `comment_range`. -/
theorem commentRange (h : Repr text s d) (hon : s.writeOk = true) (a b : ℕ) (ha : 0 < a) (hab : a ≤ b) (hb : b < text.length) :
    ∃ s' d', s.commentRange a b = some s' ∧ Repr text s' d' ∧ d'.keep = d.keep ∧ d'.pre = d.pre ∧
      (∀ j, d'.ins j =
        (if j = b + 1 then '\n' :: SrcBuf.indentAt s.buf (b + 1) else []) ++
        ((if j = a then '\n' :: (SrcBuf.indentAt s.buf a ++ ['/', '/', ' ']) else []) ++
        ((if a < j ∧ j ≤ b + 1 ∧ text.getD (j - 1) ' ' = '\n' then ['/', '/', ' '] else []) ++ d.ins j))) ∧
      b + 2 ≤ d'.size ∧ d.size ≤ d'.size := by
  unfold SrcBuf.commentRange
  rw [if_pos ⟨ha, by rw [h.orig]; exact hb⟩]
  obtain ⟨s1, d1, h1, h2, h3, h4, h5, h6, h7⟩ := h.commentMarks hon a (b + 1 - a) (by omega)
  simp only [Option.bind_eq_bind]
  rw [h1, Option.bind_some]
  obtain ⟨s2, h8, h9⟩ := h2.insert h3 a (by omega) ['\n', '/', '/', ' '] true true
  rw [h8, Option.bind_some]
  have hon2 : s2.writeOk = true := by rw [h9.on]; show d1.on = true; rw [← h2.on, h3]
  obtain ⟨s3, h10, h11⟩ := h9.insert hon2 (b + 1) (by omega) ['\n'] true true
  have e1 : (true && ['\n', '/', '/', ' '].contains '\n') = true := by decide
  have e2 : (true && ['\n'].contains '\n') = true := by decide
  rw [e1, if_pos rfl, indentText_comment, show s1.buf = s.buf by rw [h2.buf, h.buf]] at h9
  rw [e1, e2, if_pos rfl, if_pos rfl, indentText_comment, indentText_nl, show s1.buf = s.buf by rw [h2.buf, h.buf], show s2.buf = s.buf by rw [h9.buf, h.buf]] at h11
  refine ⟨s3, _, h10, h11, h4, h5, ?_, ?_⟩
  · intro j
    show (if j = b + 1 then '\n' :: SrcBuf.indentAt s.buf (b + 1) ++ (if b + 1 = a then _ else d1.ins (b + 1)) else
      (if j = a then '\n' :: (SrcBuf.indentAt s.buf a ++ ['/', '/', ' ']) ++ d1.ins a else d1.ins j)) = _
    have hcond : ∀ j, (a < j ∧ j ≤ a + (b + 1 - a) ∧ text.getD (j - 1) ' ' = '\n') ↔ (a < j ∧ j ≤ b + 1 ∧ text.getD (j - 1) ' ' = '\n') := by
      intro j; rw [show a + (b + 1 - a) = b + 1 by omega]
    by_cases hj : j = b + 1
    · have hba : ¬ b + 1 = a := by omega
      rw [if_pos hj, if_neg hba, h6 (b + 1), if_pos hj, hj, if_neg hba, if_congr (hcond _) rfl rfl]; rfl
    · rw [if_neg hj, if_neg hj]
      by_cases hja : j = a
      · rw [if_pos hja, if_pos hja, h6 a, hja, if_congr (hcond _) rfl rfl]; rfl
      · rw [if_neg hja, if_neg hja, h6 j, if_congr (hcond _) rfl rfl]; rfl
  · have e3 : (if a = text.length then text.length + 1 else d1.size) = d1.size := if_neg (by omega)
    show b + 2 ≤ (if b + 1 = text.length then text.length + 1 else (if a = text.length then text.length + 1 else d1.size)) ∧
      d.size ≤ (if b + 1 = text.length then text.length + 1 else (if a = text.length then text.length + 1 else d1.size))
    rw [e3]
    have e4 := h.hi
    have e5 := h2.lo
    split <;> omega

/-- One position of a copy. -/
theorem copyStep {text' : List Char} {s' : SrcBuf} {d' : Doc} (h : Repr text s d) (h' : Repr text' s' d') (hon : s'.writeOk = true) (k i : ℕ)
    (hi : i < text'.length) (hk : d'.keep i = true) (hins : d'.ins i = []) :
    ∃ s'' d'', ((if s.extInd (i + k) ≤ 0 then s'.remove i i else some s').bind fun s1 =>
      if (s.extInd (i + k)).natAbs > 1 then s1.insert i (s.extentAt (i + k)) true false else some s1) = some s'' ∧ Repr text' s'' d'' ∧ s''.writeOk = true ∧
      d''.pre = d'.pre ∧ d''.size = d'.size ∧
      (∀ j, d''.ins j = if j = i then d.ins (i + k) else d'.ins j) ∧ (∀ j, d''.keep j = if j = i then d.keep (i + k) else d'.keep j) := by
  have hlo := h'.lo
  have hsz := h'.size
  -- the first part
  obtain ⟨s1, d1, e1, r1, o1, p1, z1, i1, k1⟩ : ∃ s1 d1, (if s.extInd (i + k) ≤ 0 then s'.remove i i else some s') = some s1 ∧ Repr text' s1 d1 ∧ s1.writeOk = true ∧
      d1.pre = d'.pre ∧ d1.size = d'.size ∧ (∀ j, d1.ins j = if j = i then [] else d'.ins j) ∧ (∀ j, d1.keep j = if j = i then d.keep (i + k) else d'.keep j) := by
    by_cases hc : s.extInd (i + k) ≤ 0
    · obtain ⟨s1, e1, r1⟩ := h'.remove hon i i (le_refl _) (by omega)
      refine ⟨s1, _, by rw [if_pos hc]; exact e1, r1, by rw [r1.on]; show d'.on = true; rw [← h'.on, hon], rfl, rfl, ?_, ?_⟩
      · intro j
        show (if i ≤ j ∧ j ≤ i then [] else d'.ins j) = _
        exact if_congr (by omega) rfl rfl
      · intro j
        show (if i ≤ j ∧ j ≤ i then false else d'.keep j) = _
        rw [h.keep (i + k)]
        exact if_congr (by omega) (by simp only [gt_iff_lt]; rw [decide_eq_false (by omega)]) rfl
    · refine ⟨s', d', by rw [if_neg hc], h', hon, rfl, rfl, ?_, ?_⟩
      · intro j
        split
        · rename_i hj; rw [hj]; exact hins
        · rfl
      · intro j
        split
        · rename_i hj; rw [hj, hk, h.keep (i + k), decide_eq_true (by omega)]
        · rfl
  rw [e1, Option.bind_some]
  by_cases hc : (s.extInd (i + k)).natAbs > 1
  · obtain ⟨s2, e2, r2⟩ := r1.insert o1 i (by omega) (s.extentAt (i + k)) true false
    refine ⟨s2, _, by rw [if_pos hc]; exact e2, r2, by rw [r2.on]; show d1.on = true; rw [← r1.on, o1], p1, ?_, ?_, k1⟩
    · show (if i = text'.length then _ else d1.size) = _
      rw [if_neg (by omega), z1]
    · intro j
      show (if j = i then s.extentAt (i + k) ++ d1.ins i else d1.ins j) = _
      by_cases hj : j = i
      · rw [if_pos hj, if_pos hj, i1 i, if_pos rfl, List.append_nil, h.ins (i + k), if_pos hc]
      · rw [if_neg hj, if_neg hj, i1 j, if_neg hj]
  · refine ⟨s1, d1, by rw [if_neg hc], r1, o1, p1, z1, ?_, k1⟩
    intro j
    rw [i1 j]
    by_cases hj : j = i
    · rw [if_pos hj, if_pos hj, h.ins (i + k), if_neg hc]
    · rw [if_neg hj, if_neg hj]

/-- `copy_from_range`. -/
theorem copyFromRange (h : Repr text s d) (k m : ℕ) (hkm : k + m ≤ text.length) :
    ∃ s' d', s.copyFromRange k m = some s' ∧ Repr ((text.drop k).take m) s' d' ∧ d'.pre = [] ∧ d'.size = m ∧
      (∀ j, j < m → d'.ins j = d.ins (j + k) ∧ d'.keep j = d.keep (j + k)) := by
  have hbuf : (s.buf.drop k).take m = (text.drop k).take m := by
    rw [h.buf, List.drop_append_of_le_length (by omega), List.take_append_of_le_length (by rw [List.length_drop]; omega)]
  have hlen : ((text.drop k).take m).length = m := by rw [List.length_take, List.length_drop]; omega
  unfold SrcBuf.copyFromRange
  rw [hbuf]
  have : ∀ n, n ≤ m → ∃ s' d', (List.range n).foldlM (fun (s' : SrcBuf) i =>
      (if s.extInd (i + k) ≤ 0 then s'.remove i i else some s').bind fun s' => if (s.extInd (i + k)).natAbs > 1 then s'.insert i (s.extentAt (i + k)) true false else some s') (SrcBuf.create ((text.drop k).take m)) = some s' ∧
      Repr ((text.drop k).take m) s' d' ∧ s'.writeOk = true ∧ d'.pre = [] ∧ d'.size = m ∧
      (∀ j, j < n → d'.ins j = d.ins (j + k) ∧ d'.keep j = d.keep (j + k)) ∧ (∀ j, n ≤ j → d'.ins j = [] ∧ d'.keep j = decide (j < m)) := by
    intro n
    induction n with
    | zero =>
      intro _
      refine ⟨_, _, rfl, Repr.create _, rfl, rfl, hlen, fun j hj => absurd hj (Nat.not_lt_zero j), ?_⟩
      intro j _
      exact ⟨rfl, by show decide (j < _) = _; rw [hlen]⟩
    | succ n ih =>
      intro hn
      obtain ⟨s', d', h1, h2, h3, h4, h5, h6, h7⟩ := ih (by omega)
      obtain ⟨h8, h9⟩ := h7 n (le_refl _)
      obtain ⟨s'', d'', g1, g2, g3, g4, g5, g6, g7⟩ := copyStep h h2 h3 k n (by rw [hlen]; omega) (by rw [h9]; exact decide_eq_true (by omega)) h8
      rw [List.range_succ, List.foldlM_append, h1]
      simp only [Option.bind_eq_bind, Option.bind_some, List.foldlM_cons, List.foldlM_nil] at g1 ⊢
      rw [g1]
      refine ⟨s'', d'', rfl, g2, g3, by rw [g4, h4], by rw [g5, h5], ?_, ?_⟩
      · intro j hj
        rw [g6 j, g7 j]
        by_cases hjn : j = n
        · rw [if_pos hjn, if_pos hjn, hjn]; exact ⟨rfl, rfl⟩
        · rw [if_neg hjn, if_neg hjn]; exact h6 j (by omega)
      · intro j hj
        rw [g6 j, g7 j, if_neg (by omega), if_neg (by omega)]
        exact h7 j (by omega)
  obtain ⟨s', d', h1, h2, -, h4, h5, h6, -⟩ := this m (le_refl _)
  exact ⟨s', d', h1, h2, h4, h5, h6⟩

theorem spaceBack_spec (s : SrcBuf) : ∀ k, s.spaceBack k ≤ k ∧ (∀ j, s.spaceBack k ≤ j → j < k → SrcBuf.isSpace (s.charAt j) = true) ∧
    (0 < s.spaceBack k → SrcBuf.isSpace (s.charAt (s.spaceBack k - 1)) = false) := by
  intro k
  induction k with
  | zero => exact ⟨le_refl _, fun j _ h => absurd h (Nat.not_lt_zero j), fun h => absurd h (by simp [SrcBuf.spaceBack])⟩
  | succ k ih =>
    unfold SrcBuf.spaceBack
    split
    · rename_i hc
      obtain ⟨h1, h2, h3⟩ := ih
      refine ⟨by omega, ?_, h3⟩
      intro j hj hj2
      rcases Nat.lt_or_ge j k with h4 | h4
      · exact h2 j hj h4
      · rw [show j = k by omega]; exact hc
    · rename_i hc
      refine ⟨le_refl _, fun j h1 h2 => by omega, fun _ => ?_⟩
      simpa using hc

theorem spaceForward_spec (s : SrcBuf) : ∀ fuel r, s.trueSize ≤ r + fuel →
    r ≤ s.spaceForward fuel r ∧ (∀ j, r ≤ j → j < s.spaceForward fuel r → SrcBuf.isSpace (s.charAt j) = true) ∧
      (s.spaceForward fuel r < s.trueSize → SrcBuf.isSpace (s.charAt (s.spaceForward fuel r)) = false) := by
  intro fuel
  induction fuel with
  | zero => intro r h; exact ⟨le_refl _, by intro i h1 h2; simp only [SrcBuf.spaceForward] at h2; omega, by intro h2; simp only [SrcBuf.spaceForward] at h2; omega⟩
  | succ n ih =>
    intro r h
    unfold SrcBuf.spaceForward
    split
    · rename_i hc
      obtain ⟨h1, h2, h3⟩ := ih (r + 1) (by omega)
      refine ⟨by omega, ?_, h3⟩
      intro i hi hi2
      rcases Nat.eq_or_lt_of_le hi with rfl | h4
      · exact hc.2
      · exact h2 i h4 hi2
    · rename_i hc
      refine ⟨le_refl _, by intro i h1 h2; omega, ?_⟩
      intro h2
      by_contra h3
      exact hc ⟨h2, by simpa using h3⟩

theorem remove_remove (d : Doc) (a b r : ℕ) (hr : r < a) (hab : a ≤ b) : (d.remove a b).remove r (a - 1) = d.remove r b := by
  unfold Doc.remove
  congr 1
  · funext i
    by_cases h1 : r ≤ i ∧ i ≤ a - 1
    · rw [if_pos h1, if_pos (by omega)]
    · rw [if_neg h1]; exact if_congr (by omega) rfl rfl
  · funext i
    by_cases h1 : r ≤ i ∧ i ≤ a - 1
    · rw [if_pos h1, if_pos (by omega)]
    · rw [if_neg h1]; exact if_congr (by omega) rfl rfl

theorem remove_remove' (d : Doc) (a b r : ℕ) (hab : a ≤ b) (hr : b < r) : (d.remove a b).remove (b + 1) r = d.remove a r := by
  unfold Doc.remove
  congr 1
  · funext i
    by_cases h1 : b + 1 ≤ i ∧ i ≤ r
    · rw [if_pos h1, if_pos (by omega)]
    · rw [if_neg h1]; exact if_congr (by omega) rfl rfl
  · funext i
    by_cases h1 : b + 1 ≤ i ∧ i ≤ r
    · rw [if_pos h1, if_pos (by omega)]
    · rw [if_neg h1]; exact if_congr (by omega) rfl rfl

/-- `remove_with_comma`. -/
theorem removeWithComma (h : Repr text s d) (hon : s.writeOk = true) (a b : ℕ) (hab : a ≤ b) (hb : b < text.length) :
    ∃ s' lo hi, s.removeWithComma a b = some s' ∧ Repr text s' (d.remove lo hi) ∧
      ((lo < a ∧ hi = b ∧ text.getD lo ' ' = ',' ∧ ∀ j, lo < j → j < a → SrcBuf.isSpace (text.getD j ' ') = true) ∨
       (lo = a ∧ b < hi ∧ hi < text.length ∧ text.getD hi ' ' = ',' ∧ (∀ j, b < j → j < hi → SrcBuf.isSpace (text.getD j ' ') = true) ∧
          ¬ ∃ k, k < a ∧ text.getD k ' ' = ',' ∧ ∀ j, k < j → j < a → SrcBuf.isSpace (text.getD j ' ') = true) ∨
       (lo = a ∧ hi = b ∧
          (¬ ∃ k, k < a ∧ text.getD k ' ' = ',' ∧ ∀ j, k < j → j < a → SrcBuf.isSpace (text.getD j ' ') = true) ∧
          ¬ ∃ k, b < k ∧ k < text.length ∧ text.getD k ' ' = ',' ∧ ∀ j, b < j → j < k → SrcBuf.isSpace (text.getD j ' ') = true)) := by
  have hcs : SrcBuf.isSpace ',' = false := by decide
  have hlo := h.lo
  have hsz := h.size
  have hhi := h.hi
  obtain ⟨s1, e1, r1⟩ := h.remove hon a b hab (by omega)
  have o1 : s1.writeOk = true := by rw [r1.on]; show d.on = true; rw [← h.on, hon]
  have hch : ∀ j, j < text.length → s1.charAt j = text.getD j ' ' := fun j hj => r1.charAt j hj
  have hts : s1.trueSize = d.size := r1.size
  unfold SrcBuf.removeWithComma
  simp only [Option.bind_eq_bind]
  rw [e1, Option.bind_some]
  obtain ⟨b1, b2, b3⟩ := spaceBack_spec s1 a
  generalize hrb : s1.spaceBack a = r at *
  by_cases hc : 0 < r ∧ s1.charAt (r - 1) = ','
  · rw [if_pos hc]
    obtain ⟨s2, e2, r2⟩ := r1.remove o1 (r - 1) (a - 1) (by omega) (by omega)
    rw [remove_remove d a b (r - 1) (by omega) hab] at r2
    refine ⟨s2, r - 1, b, e2, r2, Or.inl ⟨by omega, rfl, ?_, ?_⟩⟩
    · rw [← hch (r - 1) (by omega)]; exact hc.2
    · intro j hj hj2
      rw [← hch j (by omega)]; exact b2 j (by omega) hj2
  · rw [if_neg hc]
    have hno : ¬ ∃ k, k < a ∧ text.getD k ' ' = ',' ∧ ∀ j, k < j → j < a → SrcBuf.isSpace (text.getD j ' ') = true := by
      rintro ⟨k, k1, k2, k3⟩
      have hk : k < r := by
        by_contra hk
        have := b2 k (by omega) k1
        rw [hch k (by omega), k2, hcs] at this
        cases this
      by_cases hk2 : k = r - 1
      · refine hc ⟨by omega, ?_⟩
        rw [← hk2, hch k (by omega), k2]
      · have h1 := b3 (by omega)
        rw [hch (r - 1) (by omega), k3 (r - 1) (by omega) (by omega)] at h1
        cases h1
    obtain ⟨f1, f2, f3⟩ := spaceForward_spec s1 s1.trueSize (b + 1) (by omega)
    generalize hrf : s1.spaceForward s1.trueSize (b + 1) = q at *
    by_cases hq : q < s1.trueSize
    · have hq2 : q < text.length := by
        by_contra hq2
        have hqe : q = text.length := by omega
        have h1 := f3 hq
        have h2 : s1.charAt q = ' ' := by
          unfold SrcBuf.charAt
          rw [r1.buf, hqe, List.getD_eq_getElem?_getD]
          simp
        rw [h2] at h1
        exact absurd h1 (by decide)
      rw [if_pos hq, if_pos (by rw [r1.orig]; exact hq2)]
      by_cases hcq : s1.charAt q = ','
      · rw [if_pos hcq]
        obtain ⟨s2, e2, r2⟩ := r1.remove o1 (b + 1) q f1 hq
        rw [remove_remove' d a b q hab (by omega)] at r2
        refine ⟨s2, a, q, e2, r2, Or.inr (Or.inl ⟨rfl, by omega, hq2, ?_, ?_, hno⟩)⟩
        · rw [← hch q hq2]; exact hcq
        · intro j hj hj2
          rw [← hch j (by omega)]; exact f2 j (by omega) hj2
      · rw [if_neg hcq]
        refine ⟨s1, a, b, rfl, r1, Or.inr (Or.inr ⟨rfl, rfl, hno, ?_⟩)⟩
        rintro ⟨k, k1, k2, k3, k4⟩
        rcases Nat.lt_trichotomy k q with hk | hk | hk
        · have := f2 k (by omega) hk
          rw [hch k k2, k3, hcs] at this
          cases this
        · rw [← hk, hch k k2] at hcq; exact hcq k3
        · have h1 := f3 hq
          rw [hch q hq2, k4 q (by omega) hk] at h1
          cases h1
    · rw [if_neg hq]
      refine ⟨s1, a, b, rfl, r1, Or.inr (Or.inr ⟨rfl, rfl, hno, ?_⟩)⟩
      rintro ⟨k, k1, k2, k3, k4⟩
      have := f2 k (by omega) (by omega)
      rw [hch k k2, k3, hcs] at this
      cases this

end Repr

end Hila
