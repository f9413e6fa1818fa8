import Verif.Lemmas.SrcBuf

/-! # The edits keep the representation -/

namespace Hila

namespace SrcBuf

theorem removeOne_facts (s : SrcBuf) (i : ℕ) (hon : s.writeOk = true) (hm : s.extInd i ≠ -1) :
    (s.removeOne i).buf = s.buf ∧ (s.removeOne i).originalSize = s.originalSize ∧ (s.removeOne i).trueSize = s.trueSize ∧
      (s.removeOne i).prependbuf = s.prependbuf ∧ (s.removeOne i).writeOk = s.writeOk ∧
      (∀ j, j ≠ i → (s.removeOne i).extInd j = s.extInd j) ∧ (s.removeOne i).extInd i = 0 ∧
      (s.removeOne i).extents = (if (s.extInd i).natAbs > 1 then s.extents.set ((s.extInd i).natAbs - 2) [] else s.extents) ∧
      (s.removeOne i).free = (if (s.extInd i).natAbs > 1 then ((s.extInd i).natAbs - 2) :: s.free else s.free) ∧
      (s.removeOne i).fullLength = s.fullLength - (s.cell i).length := by
  have hon' : ¬ s.writeOk = false := by simp [hon]
  unfold removeOne removeExtent
  by_cases he : (s.extInd i).natAbs > 1
  · by_cases hp : s.extInd i > 0
    · simp only [if_neg hon', if_pos he, if_pos hp, Function.update_self, gt_iff_lt, zero_lt_one, if_true]
      refine ⟨trivial, trivial, trivial, trivial, trivial, ?_, trivial, trivial, trivial, ?_⟩
      · intro j hj; rw [Function.update_of_ne hj, Function.update_of_ne hj]
      · unfold cell
        rw [if_pos he, if_pos hp, List.length_append, List.length_singleton]
        unfold extentAt
        rw [Nat.sub_sub]
    · simp only [if_neg hon', if_pos he, if_neg hp, Function.update_self, lt_self_iff_false, gt_iff_lt, if_false]
      refine ⟨trivial, trivial, trivial, trivial, trivial, ?_, trivial, trivial, trivial, ?_⟩
      · intro j hj; rw [Function.update_of_ne hj]
      · unfold cell
        rw [if_pos he, if_neg hp, List.append_nil]
        rfl
  · by_cases hp : s.extInd i > 0
    · simp only [if_neg hon', if_neg he, if_pos hp, Function.update_self]
      refine ⟨trivial, trivial, trivial, trivial, trivial, ?_, trivial, trivial, trivial, ?_⟩
      · intro j hj; rw [Function.update_of_ne hj]
      · unfold cell
        rw [if_neg he, if_pos hp]; rfl
    · have h0 : s.extInd i = 0 := by omega
      simp only [if_neg hon', if_neg he, if_neg hp]
      refine ⟨trivial, trivial, trivial, trivial, trivial, ?_, h0, trivial, trivial, ?_⟩
      · intro j _; first | rfl | trivial
      · rw [cell_zero s i h0]; rfl

/-- The extents of other positions stay when one extent changes. -/
theorem getD_set_ne (l : List (List Char)) (k j : ℕ) (v : List Char) (h : k ≠ j) : (l.set k v).getD j [] = l.getD j [] := by
  rw [List.getD_eq_getElem?_getD, List.getD_eq_getElem?_getD, List.getElem?_set_ne h]

theorem getD_set_self (l : List (List Char)) (k : ℕ) (v : List Char) (h : k < l.length) : (l.set k v).getD k [] = v := by
  rw [List.getD_eq_getElem?_getD, List.getElem?_set_self h]; rfl

end SrcBuf

namespace Repr

variable {text : List Char} {s : SrcBuf} {d : Doc}

/-- A change at one position. -/
theorem change (h : Repr text s d) (s' : SrcBuf) (d' : Doc) (i : ℕ) (hi : i < s.trueSize) (hbuf : s'.buf = s.buf) (horig : s'.originalSize = s.originalSize)
    (hsize : s'.trueSize = s.trueSize) (hpre : s'.prependbuf = s.prependbuf) (hon : s'.writeOk = s.writeOk)
    (hne : ∀ j, j ≠ i → s'.extInd j = s.extInd j) (hm : s'.extInd i ≠ -1) (hend : s'.extInd i > 0 → s.extInd i > 0)
    (hext : ∀ j, j ≠ i → (s.extInd j).natAbs > 1 → s'.extentAt j = s.extentAt j)
    (hds : d'.size = d.size) (hdp : d'.pre = d.pre) (hdo : d'.on = d.on)
    (hdi : ∀ j, j ≠ i → d'.ins j = d.ins j ∧ d'.keep j = d.keep j)
    (hdi2 : d'.ins i = if (s'.extInd i).natAbs > 1 then s'.extentAt i else []) (hdk : d'.keep i = decide (s'.extInd i > 0))
    (hbound : ∀ j, (s'.extInd j).natAbs > 1 → (s'.extInd j).natAbs - 2 < s'.extents.length ∧ (s'.extInd j).natAbs - 2 ∉ s'.free)
    (hinj : (s'.extInd i).natAbs > 1 → ∀ j, j ≠ i → (s'.extInd j).natAbs ≠ (s'.extInd i).natAbs)
    (hfb : ∀ f ∈ s'.free, f < s'.extents.length) (hfn : s'.free.Nodup)
    (hfull : s'.fullLength + (s.cell i).length = s.fullLength + (s'.cell i).length) : Repr text s' d' := by
  have hcell : ∀ j, j ≠ i → s'.cell j = s.cell j := by
    intro j hj
    have hch : s'.charAt j = s.charAt j := by unfold SrcBuf.charAt; rw [hbuf]
    unfold SrcBuf.cell
    rw [hch]
    by_cases h2 : (s.extInd j).natAbs > 1
    · rw [if_pos (show (s'.extInd j).natAbs > 1 by rw [hne j hj]; exact h2), if_pos h2, hext j hj h2]
      simp only [hne j hj]
    · rw [if_neg (show ¬ (s'.extInd j).natAbs > 1 by rw [hne j hj]; exact h2), if_neg h2]
      simp only [hne j hj]
  constructor
  · rw [hbuf]; exact h.buf
  · rw [horig]; exact h.orig
  · rw [hsize, hds]; exact h.size
  · rw [hds]; exact h.lo
  · rw [hds]; exact h.hi
  · rw [hpre, hdp]; exact h.pre
  · rw [hon, hdo]; exact h.on
  · intro j
    by_cases hj : j = i
    · rw [hj]; exact hdi2
    · rw [(hdi j hj).1, h.ins j]
      by_cases h2 : (s.extInd j).natAbs > 1
      · rw [if_pos (show (s'.extInd j).natAbs > 1 by rw [hne j hj]; exact h2), if_pos h2, hext j hj h2]
      · rw [if_neg (show ¬ (s'.extInd j).natAbs > 1 by rw [hne j hj]; exact h2), if_neg h2]
  · intro j
    by_cases hj : j = i
    · rw [hj]; exact hdk
    · rw [(hdi j hj).2, h.keep j, hne j hj]
  · intro j
    by_cases hj : j = i
    · rw [hj]; exact hm
    · rw [hne j hj]; exact h.noMinus j
  · intro j hj2
    rw [hne j (by omega)]; exact h.outside j (by omega)
  · by_cases hj : text.length = i
    · have := h.atEnd
      rw [hj] at this ⊢
      by_contra hc
      have := hend (by omega)
      omega
    · rw [hne _ hj]; exact h.atEnd
  · exact hbound
  · intro j k hj2 hjk
    by_cases hj : j = i
    · by_contra hc
      rw [hj] at hj2 hjk hc
      exact hinj hj2 k (fun h => hc h.symm) hjk.symm
    · by_cases hk : k = i
      · rw [hk] at hjk
        exact absurd hjk (hinj (by omega) j hj)
      · rw [hne j hj] at hj2 hjk
        rw [hne k hk] at hjk
        exact h.inj j k hj2 hjk
  · exact hfb
  · exact hfn
  · have hsum := sum_change (fun j => (s.cell j).length) (fun j => (s'.cell j).length) s.trueSize i hi fun j hj => by
      show (s'.cell j).length = (s.cell j).length
      rw [hcell j hj]
    have h2 := h.full
    rw [hsize, hpre]
    omega

theorem cell_le (h : Repr text s d) (i : ℕ) (hi : i < s.trueSize) : (s.cell i).length ≤ s.fullLength := by
  have h1 := Finset.single_le_sum (f := fun j => (s.cell j).length) (s := Finset.range s.trueSize) (fun _ _ => Nat.zero_le _) (Finset.mem_range.mpr hi)
  have h2 := h.full
  omega

theorem removeOne (h : Repr text s d) (hon : s.writeOk = true) (i : ℕ) (hi : i < s.trueSize) : Repr text (s.removeOne i) (d.remove i i) := by
  obtain ⟨h1, h2, h3, h4, h5, h6, h7, h8, h9, h10⟩ := s.removeOne_facts i hon (h.noMinus i)
  have hle := h.cell_le i hi
  generalize s.removeOne i = s' at *
  have hdi : ∀ j, (i ≤ j ∧ j ≤ i) ↔ j = i := by intro j; omega
  refine h.change s' _ i hi h1 h2 h3 h4 h5 h6 (by rw [h7]; decide) (by rw [h7]; intro hc; omega) ?_ rfl rfl rfl ?_ ?_ ?_ ?_ ?_ ?_ ?_ ?_
  · intro j hj hj2
    unfold SrcBuf.extentAt
    rw [h8, h6 j hj]
    by_cases he : (s.extInd i).natAbs > 1
    · rw [if_pos he, SrcBuf.getD_set_ne]
      intro hc
      exact hj (h.inj j i hj2 (by omega))
    · rw [if_neg he]
  · intro j hj
    simp only [Doc.remove, hdi, if_neg hj, and_self]
  · simp only [Doc.remove, hdi, if_true, h7]; rfl
  · simp only [Doc.remove, hdi, if_true, h7]; rfl
  · intro j hj2
    by_cases hj : j = i
    · rw [hj, h7] at hj2; simp at hj2
    · rw [h6 j hj] at hj2 ⊢
      obtain ⟨h11, h12⟩ := h.bound j hj2
      rw [h8, h9]
      by_cases he : (s.extInd i).natAbs > 1
      · rw [if_pos he, if_pos he, List.length_set]
        refine ⟨h11, ?_⟩
        rw [List.mem_cons]
        rintro (hc | hc)
        · exact hj (h.inj j i hj2 (by omega))
        · exact h12 hc
      · rw [if_neg he, if_neg he]; exact ⟨h11, h12⟩
  · intro hc; rw [h7] at hc; simp at hc
  · intro f hf
    rw [h9] at hf
    rw [h8]
    by_cases he : (s.extInd i).natAbs > 1
    · rw [if_pos he] at hf ⊢
      rw [List.length_set]
      rcases List.mem_cons.mp hf with h1 | h1
      · rw [h1]; exact (h.bound i he).1
      · exact h.freeBound f h1
    · rw [if_neg he] at hf ⊢; exact h.freeBound f hf
  · rw [h9]
    by_cases he : (s.extInd i).natAbs > 1
    · rw [if_pos he]; exact List.nodup_cons.mpr ⟨(h.bound i he).2, h.freeNodup⟩
    · rw [if_neg he]; exact h.freeNodup
  · rw [h10, SrcBuf.cell_zero s' i h7, List.length_nil]
    omega

theorem modified (h : Repr text s d) (b : Bool) : Repr text { s with modified := b } d :=
  ⟨h.buf, h.orig, h.size, h.lo, h.hi, h.pre, h.on, h.ins, h.keep, h.noMinus, h.outside, h.atEnd, h.bound, h.inj, h.freeBound, h.freeNodup, h.full⟩

theorem removeOne_keep (s : SrcBuf) (hon : s.writeOk = true) (i : ℕ) (hm : s.extInd i ≠ -1) :
    (s.removeOne i).writeOk = true ∧ (s.removeOne i).trueSize = s.trueSize := by
  obtain ⟨-, -, h3, -, h5, -⟩ := s.removeOne_facts i hon hm
  exact ⟨by rw [h5, hon], h3⟩

theorem removeFold (h : Repr text s d) (hon : s.writeOk = true) (a : ℕ) : ∀ n, a + n ≤ s.trueSize →
    ∃ d', Repr text ((List.range' a n).foldl SrcBuf.removeOne s) d' ∧
      d'.ins = (fun i => if a ≤ i ∧ i < a + n then [] else d.ins i) ∧ d'.keep = (fun i => if a ≤ i ∧ i < a + n then false else d.keep i) ∧
      d'.pre = d.pre ∧ d'.size = d.size ∧ d'.on = d.on ∧ ((List.range' a n).foldl SrcBuf.removeOne s).writeOk = true ∧
      ((List.range' a n).foldl SrcBuf.removeOne s).trueSize = s.trueSize := by
  intro n
  induction n with
  | zero =>
    intro _
    refine ⟨d, h, ?_, ?_, rfl, rfl, rfl, hon, rfl⟩
    · funext i; rw [if_neg (by omega)]
    · funext i; rw [if_neg (by omega)]
  | succ n ih =>
    intro hn
    obtain ⟨d', h1, h2, h3, h4, h5, h6, h7, h8⟩ := ih (by omega)
    rw [List.range'_1_concat, List.foldl_append]
    simp only [List.foldl_cons, List.foldl_nil]
    obtain ⟨h9, h10⟩ := removeOne_keep _ h7 (a + n) (h1.noMinus (a + n))
    refine ⟨d'.remove (a + n) (a + n), h1.removeOne h7 (a + n) (by omega), ?_, ?_, h4, h5, h6, h9, by rw [h10, h8]⟩
    · funext i
      simp only [Doc.remove, h2]
      by_cases hi : a + n ≤ i ∧ i ≤ a + n
      · rw [if_pos hi, if_pos (by omega)]
      · rw [if_neg hi]
        by_cases hi2 : a ≤ i ∧ i < a + n
        · rw [if_pos hi2, if_pos (by omega)]
        · rw [if_neg hi2, if_neg (by omega)]
    · funext i
      simp only [Doc.remove, h3]
      by_cases hi : a + n ≤ i ∧ i ≤ a + n
      · rw [if_pos hi, if_pos (by omega)]
      · rw [if_neg hi]
        by_cases hi2 : a ≤ i ∧ i < a + n
        · rw [if_pos hi2, if_pos (by omega)]
        · rw [if_neg hi2, if_neg (by omega)]

theorem remove (h : Repr text s d) (hon : s.writeOk = true) (a b : ℕ) (hab : a ≤ b) (hb : b < s.trueSize) :
    ∃ s', s.remove a b = some s' ∧ Repr text s' (d.remove a b) := by
  unfold SrcBuf.remove
  rw [if_pos ⟨hab, hb⟩, if_neg (by rw [hon]; decide)]
  refine ⟨_, rfl, ?_⟩
  obtain ⟨d', h1, h2, h3, h4, h5, h6, h7, h8⟩ := h.removeFold hon a (b + 1 - a) (by omega)
  have : d' = d.remove a b := by
    cases d'
    simp only at h2 h3 h4 h5 h6
    unfold Doc.remove
    subst h4 h5 h6 h2 h3
    congr 1
    · funext i; exact if_congr (by omega) rfl rfl
    · funext i; exact if_congr (by omega) rfl rfl
  rw [← this]
  exact h1.modified true

/-- The end becomes a position. -/
theorem grow (h : Repr text s d) : Repr text { s with trueSize := s.originalSize + 1 } { d with size := text.length + 1 } := by
  refine ⟨h.buf, h.orig, by rw [h.orig], Nat.le_succ _, le_refl _, h.pre, h.on, h.ins, h.keep, h.noMinus, ?_, h.atEnd, h.bound, h.inj, h.freeBound, h.freeNodup, ?_⟩
  · intro i hi
    have h1 := h.hi
    have h2 := h.size
    have h3 := h.orig
    have hi2 : s.originalSize + 1 ≤ i := hi
    exact h.outside i (by omega)
  · have h1 := h.full
    have h2 := h.size
    have h3 := h.orig
    show s.fullLength = s.prependbuf.length + ∑ i ∈ Finset.range (s.originalSize + 1), (s.cell i).length
    rcases Nat.eq_or_lt_of_le h.lo with h4 | h4
    · rw [Finset.sum_range_succ, SrcBuf.cell_zero s s.originalSize (h.outside _ (by omega)), show s.originalSize = s.trueSize by omega, h1]; rfl
    · have h5 := h.hi
      rw [show s.originalSize + 1 = s.trueSize by omega, h1]

/-- The new text at one position, with room for it. -/
theorem insertCore (h : Repr text s d) (i : ℕ) (hi : i < s.trueSize) (t : List Char) (before : Bool) (s' : SrcBuf)
    (hs : s' =
        if (s.extInd i).natAbs > 1 then
          { s with extents := s.extents.modify ((s.extInd i).natAbs - 2) fun p => if before then t ++ p else p ++ t }
        else
          match s.free with
          | [] => { s with
              extents := s.extents ++ [t]
              extInd := Function.update s.extInd i (if s.extInd i > 0 then ((s.extents.length + 2 : ℕ) : ℤ) else -((s.extents.length + 2 : ℕ) : ℤ)) }
          | j :: fr => { s with
              extents := s.extents.set j t
              free := fr
              extInd := Function.update s.extInd i (if s.extInd i > 0 then ((j + 2 : ℕ) : ℤ) else -((j + 2 : ℕ) : ℤ)) }) :
    Repr text { s' with fullLength := s'.fullLength + t.length }
      { d with ins := fun j => if j = i then (if before then t ++ d.ins i else d.ins i ++ t) else d.ins j } := by
  by_cases he : (s.extInd i).natAbs > 1
  · rw [if_pos he] at hs
    obtain ⟨hb, hf⟩ := h.bound i he
    have hlen : s'.extents.length = s.extents.length := by rw [hs]; exact List.length_modify _ _ _
    have hat : ∀ k, s'.extents.getD k [] = if k = (s.extInd i).natAbs - 2 then (if before then t ++ s.extentAt i else s.extentAt i ++ t) else s.extents.getD k [] := by
      intro k
      rw [hs, List.getD_eq_getElem?_getD, List.getElem?_modify]
      by_cases hk : (s.extInd i).natAbs - 2 = k
      · rw [if_pos hk.symm, ← hk, List.getElem?_eq_getElem hb]
        unfold SrcBuf.extentAt
        rw [List.getD_eq_getElem?_getD, List.getElem?_eq_getElem hb]
        simp
      · rw [if_neg (fun hc => hk hc.symm), List.getD_eq_getElem?_getD]
        simp only [hk, if_false]
        cases s.extents[k]? <;> rfl
    have hfull : s'.fullLength = s.fullLength := by rw [hs]
    have hind : s'.extInd = s.extInd := by rw [hs]
    have hfree : s'.free = s.free := by rw [hs]
    have hself : SrcBuf.extentAt s' i = if before then t ++ s.extentAt i else s.extentAt i ++ t := by
      show s'.extents.getD ((s'.extInd i).natAbs - 2) [] = _
      rw [hind, hat, if_pos rfl]
    have hcl : (SrcBuf.cell { s' with fullLength := s'.fullLength + t.length } i).length = (s.cell i).length + t.length := by
      have e1 : SrcBuf.cell { s' with fullLength := s'.fullLength + t.length } i =
          (if (s'.extInd i).natAbs > 1 then s'.extentAt i else []) ++ if s'.extInd i > 0 then [s'.charAt i] else [] := rfl
      rw [e1, hself]
      simp only [hind]
      unfold SrcBuf.cell
      rw [if_pos he, if_pos he, List.length_append, List.length_append]
      by_cases hb : before <;> by_cases hp : s.extInd i > 0 <;> simp [hb, hp] <;> omega
    refine h.change _ _ i hi (by rw [hs]) (by rw [hs]) (by rw [hs]) (by rw [hs]) (by rw [hs]) (fun j _ => by rw [hs]) (by rw [hind]; exact h.noMinus i)
      (by rw [hind]; exact id) ?_ rfl rfl rfl ?_ ?_ ?_ ?_ ?_ ?_ ?_ ?_
    · intro j hj hj2
      show s'.extents.getD ((s'.extInd j).natAbs - 2) [] = _
      rw [hind, hat, if_neg]
      · rfl
      · intro hc; exact hj (h.inj j i hj2 (by omega))
    · intro j hj; exact ⟨if_neg hj, rfl⟩
    · show (if i = i then (if before then t ++ d.ins i else d.ins i ++ t) else d.ins i) = if (s'.extInd i).natAbs > 1 then s'.extentAt i else []
      rw [if_pos rfl, h.ins i, if_pos he, if_pos (show (s'.extInd i).natAbs > 1 by rw [hind]; exact he), hself]
    · show d.keep i = decide (s'.extInd i > 0)
      rw [h.keep i, hind]
    · intro j hj
      have hj2 : (s.extInd j).natAbs > 1 := by rw [← hind]; exact hj
      show (s'.extInd j).natAbs - 2 < s'.extents.length ∧ (s'.extInd j).natAbs - 2 ∉ s'.free
      rw [hlen, hfree, hind]
      exact h.bound j hj2
    · intro _ j hj hc
      have hc2 : (s.extInd j).natAbs = (s.extInd i).natAbs := by rw [← hind]; exact hc
      exact hj (h.inj j i (by omega) hc2)
    · intro f hf2
      show f < s'.extents.length
      rw [hlen]
      refine h.freeBound f ?_
      rw [← hfree]; exact hf2
    · show s'.free.Nodup
      rw [hfree]; exact h.freeNodup
    · rw [hcl]
      show s'.fullLength + t.length + _ = _
      omega
  · rw [if_neg he] at hs
    -- the place of the new extent
    obtain ⟨j, hj, hfj, hind, hat, hlen, hfree, hrest⟩ : ∃ j, j < s'.extents.length ∧ (∀ k, (s.extInd k).natAbs > 1 → (s.extInd k).natAbs - 2 ≠ j) ∧
        s'.extInd = Function.update s.extInd i (if s.extInd i > 0 then ((j + 2 : ℕ) : ℤ) else -((j + 2 : ℕ) : ℤ)) ∧
        (∀ k, k < s.extents.length ∨ k = j → s'.extents.getD k [] = if k = j then t else s.extents.getD k []) ∧ s.extents.length ≤ s'.extents.length ∧
        (∀ f ∈ s'.free, f ∈ s.free ∧ f ≠ j) ∧
        (s'.free.Nodup ∧ s'.buf = s.buf ∧ s'.originalSize = s.originalSize ∧ s'.trueSize = s.trueSize ∧ s'.prependbuf = s.prependbuf ∧
          s'.writeOk = s.writeOk ∧ s'.fullLength = s.fullLength) := by
      rcases hfr : s.free with _ | ⟨j, fr⟩
      · rw [hfr] at hs
        dsimp only at hs
        refine ⟨s.extents.length, by rw [hs]; simp, ?_, by rw [hs], ?_, by rw [hs]; simp, ?_, by rw [hs]; exact List.nodup_nil, by rw [hs], by rw [hs], by rw [hs], by rw [hs], by rw [hs], by rw [hs]⟩
        · intro k hk hc
          have := (h.bound k hk).1
          omega
        · intro k hk
          rw [hs]
          by_cases hk2 : k = s.extents.length
          · rw [if_pos hk2, hk2, List.getD_eq_getElem?_getD]; simp
          · rw [if_neg hk2, List.getD_eq_getElem?_getD, List.getD_eq_getElem?_getD, List.getElem?_append_left (by omega)]
        · intro f hf
          rw [hs] at hf
          have hf2 : f ∈ ([] : List ℕ) := hf
          cases hf2
      · rw [hfr] at hs
        dsimp only at hs
        have hjb : j < s.extents.length := h.freeBound j (by rw [hfr]; exact List.mem_cons_self)
        have hnd : (j :: fr).Nodup := by rw [← hfr]; exact h.freeNodup
        refine ⟨j, by rw [hs]; simpa using hjb, ?_, by rw [hs], ?_, by rw [hs]; simp, ?_, by rw [hs]; exact (List.nodup_cons.mp hnd).2, by rw [hs], by rw [hs], by rw [hs], by rw [hs], by rw [hs], by rw [hs]⟩
        · intro k hk hc
          refine (h.bound k hk).2 ?_
          rw [hc, hfr]; exact List.mem_cons_self
        · intro k hk
          rw [hs]
          by_cases hk2 : k = j
          · rw [if_pos hk2, hk2, SrcBuf.getD_set_self _ _ _ hjb]
          · rw [if_neg hk2, SrcBuf.getD_set_ne _ _ _ _ (fun hc => hk2 hc.symm)]
        · intro f hf
          have hf2 : f ∈ fr := by rw [hs] at hf; exact hf
          exact ⟨List.mem_cons_of_mem _ hf2, fun hc => (List.nodup_cons.mp hnd).1 (hc ▸ hf2)⟩
    obtain ⟨hnd, hbuf, horig, hts, hpre, hwo, hfl⟩ := hrest
    have hne : ∀ k, k ≠ i → s'.extInd k = s.extInd k := fun k hk => by rw [hind, Function.update_of_ne hk]
    have hself : s'.extInd i = if s.extInd i > 0 then ((j + 2 : ℕ) : ℤ) else -((j + 2 : ℕ) : ℤ) := by rw [hind, Function.update_self]
    have habs : (s'.extInd i).natAbs = j + 2 := by rw [hself]; split <;> omega
    have hsgn : s'.extInd i > 0 ↔ s.extInd i > 0 := by
      rw [hself]
      split
      · rename_i h1; constructor
        · intro _; exact h1
        · intro _; omega
      · rename_i h1; constructor
        · intro h2; omega
        · intro h2; exact absurd h2 h1
    have hextI : s'.extentAt i = t := by
      unfold SrcBuf.extentAt
      rw [habs, show j + 2 - 2 = j by omega, hat j (Or.inr rfl), if_pos rfl]
    have hcl : (SrcBuf.cell { s' with fullLength := s'.fullLength + t.length } i).length = (s.cell i).length + t.length := by
      have e1 : SrcBuf.cell { s' with fullLength := s'.fullLength + t.length } i =
          (if (s'.extInd i).natAbs > 1 then s'.extentAt i else []) ++ if s'.extInd i > 0 then [s'.charAt i] else [] := rfl
      rw [e1, hextI, if_pos (by omega)]
      unfold SrcBuf.cell
      rw [if_neg he, List.length_append, List.length_append]
      by_cases hp : s.extInd i > 0
      · rw [if_pos hp, if_pos (hsgn.mpr hp)]; simp; omega
      · rw [if_neg hp, if_neg (fun hc => hp (hsgn.mp hc))]; simp
    refine h.change _ _ i hi hbuf horig hts hpre hwo hne ?_ hsgn.mp ?_ rfl rfl rfl ?_ ?_ ?_ ?_ ?_ ?_ ?_ ?_
    · show s'.extInd i ≠ -1
      intro hc; rw [hc] at habs; simp at habs
    · intro k hk hk2
      show s'.extents.getD ((s'.extInd k).natAbs - 2) [] = _
      rw [hne k hk, hat _ (Or.inl (h.bound k hk2).1), if_neg (hfj k hk2)]
      rfl
    · intro k hk; exact ⟨if_neg hk, rfl⟩
    · show (if i = i then (if before then t ++ d.ins i else d.ins i ++ t) else d.ins i) = if (s'.extInd i).natAbs > 1 then s'.extentAt i else []
      rw [if_pos rfl, h.ins i, if_neg he, if_pos (show (s'.extInd i).natAbs > 1 by omega), hextI]
      by_cases hb : before <;> simp [hb]
    · show d.keep i = decide (s'.extInd i > 0)
      rw [h.keep i]; exact decide_eq_decide.mpr hsgn.symm
    · intro k hk
      have hk' : (s'.extInd k).natAbs > 1 := hk
      show (s'.extInd k).natAbs - 2 < s'.extents.length ∧ (s'.extInd k).natAbs - 2 ∉ s'.free
      by_cases hki : k = i
      · rw [hki, habs]
        refine ⟨by omega, fun hc => ?_⟩
        have := (hfree _ hc).2
        omega
      · rw [hne k hki] at hk' ⊢
        obtain ⟨h1, h2⟩ := h.bound k hk'
        exact ⟨by omega, fun hc => h2 (hfree _ hc).1⟩
    · intro _ k hk hc
      have hc' : (s'.extInd k).natAbs = (s'.extInd i).natAbs := hc
      rw [hne k hk, habs] at hc'
      exact hfj k (by omega) (by omega)
    · intro f hf
      have := h.freeBound f (hfree f hf).1
      show f < s'.extents.length
      omega
    · exact hnd
    · rw [hcl]
      show s'.fullLength + t.length + _ = _
      omega

/-- `insert` for a position up to the end of the text. -/
theorem insert (h : Repr text s d) (hon : s.writeOk = true) (i : ℕ) (hi : i ≤ text.length) (t : List Char) (before indent : Bool) :
    ∃ s', s.insert i t before indent = some s' ∧ Repr text s' (d.insert text i
      (if indent && t.contains '\n' then SrcBuf.indentText (SrcBuf.indentAt s.buf i) t else t) before) := by
  have hon' : ¬ s.writeOk = false := by simp [hon]
  unfold SrcBuf.insert
  rw [if_neg hon']
  dsimp only
  by_cases hend : i = s.originalSize
  · simp only [if_pos hend]
    rw [if_pos (by show i < s.originalSize + 1; omega)]
    refine ⟨_, rfl, ?_⟩
    have h2 := (h.grow.modified true).insertCore i (by show i < s.originalSize + 1; omega)
      (if indent && t.contains '\n' then SrcBuf.indentText (SrcBuf.indentAt s.buf i) t else t) before _ rfl
    unfold Doc.insert
    rw [show (if i = text.length then text.length + 1 else d.size) = text.length + 1 from if_pos (by rw [hend, h.orig])]
    exact h2
  · simp only [if_neg hend]
    have hlt : i < s.trueSize := by
      have h1 := h.lo
      have h2 := h.size
      have h3 := h.orig
      omega
    rw [if_pos hlt]
    refine ⟨_, rfl, ?_⟩
    have h2 := (h.modified true).insertCore i hlt
      (if indent && t.contains '\n' then SrcBuf.indentText (SrcBuf.indentAt s.buf i) t else t) before _ rfl
    unfold Doc.insert
    rw [show (if i = text.length then text.length + 1 else d.size) = d.size from if_neg (by rw [← h.orig]; exact hend)]
    exact h2

theorem insert_none (h : Repr text s d) (hon : s.writeOk = true) (i : ℕ) (hi : ¬ i ≤ text.length) (t : List Char) (before indent : Bool) :
    s.insert i t before indent = none := by
  have hon' : ¬ s.writeOk = false := by simp [hon]
  have h1 := h.hi
  have h2 := h.size
  have h3 := h.orig
  unfold SrcBuf.insert
  rw [if_neg hon']
  dsimp only
  rw [if_neg (show ¬ i = s.originalSize by omega), if_neg]
  show ¬ i < s.trueSize
  omega

theorem insert_off (hon : s.writeOk = false) (i : ℕ) (t : List Char) (before indent : Bool) : s.insert i t before indent = some s := by
  unfold SrcBuf.insert; rw [if_pos hon]

/-- Every edit keeps the representation, or both are refused. -/
theorem apply (h : Repr text s d) (e : Edit) :
    (s.apply e = none ∧ d.apply text e = none) ∨ ∃ s' d', s.apply e = some s' ∧ d.apply text e = some d' ∧ Repr text s' d' := by
  have hsz := h.size
  have hrem : ∀ a b, s.trueSize ≤ b ∨ b < a → s.remove a b = none := by
    intro a b hc; unfold SrcBuf.remove; rw [if_neg (by omega)]
  have hoff : s.writeOk = false → ∀ a b, a ≤ b → b < s.trueSize → s.remove a b = some s := by
    intro h1 a b h2 h3; unfold SrcBuf.remove; rw [if_pos ⟨h2, h3⟩, if_pos h1]
  cases e with
  | remove a b =>
    simp only [SrcBuf.apply, Doc.apply]
    by_cases hc : a ≤ b ∧ b < d.size
    · right
      rw [if_pos hc]
      by_cases hon : s.writeOk = true
      · obtain ⟨s', h1, h2⟩ := h.remove hon a b hc.1 (by omega)
        exact ⟨s', _, h1, rfl, by rw [if_pos (by rw [← h.on]; exact hon)]; exact h2⟩
      · have hf : s.writeOk = false := by simpa using hon
        exact ⟨s, _, hoff hf a b hc.1 (by omega), rfl, by rw [if_neg (by rw [← h.on]; exact hon)]; exact h⟩
    · left
      exact ⟨hrem a b (by omega), if_neg hc⟩
  | insert i t before =>
    simp only [SrcBuf.apply, Doc.apply]
    by_cases hon : s.writeOk = true
    · rw [if_pos (show d.on = true by rw [← h.on]; exact hon)]
      by_cases hi : i ≤ text.length
      · right
        obtain ⟨s', h1, h2⟩ := h.insert hon i hi t before false
        rw [if_pos hi]
        exact ⟨s', _, h1, rfl, h2⟩
      · left; exact ⟨h.insert_none hon i hi t before false, if_neg hi⟩
    · right
      have hf : s.writeOk = false := by simpa using hon
      exact ⟨s, d, insert_off hf i t before false, by rw [if_neg (by rw [← h.on]; exact hon)], h⟩
  | replace a b t =>
    simp only [SrcBuf.apply, Doc.apply, SrcBuf.replace]
    by_cases hc : a ≤ b ∧ b < d.size
    · right
      rw [if_pos hc]
      by_cases hon : s.writeOk = true
      · obtain ⟨s', h1, h2⟩ := h.remove hon a b hc.1 (by omega)
        have hon2 : s'.writeOk = true := by rw [h2.on]; show d.on = true; rw [← h.on, hon]
        have hhi := h.hi
        obtain ⟨s'', h3, h4⟩ := h2.insert hon2 a (by omega) t true false
        refine ⟨s'', _, ?_, rfl, by rw [if_pos (by rw [← h.on]; exact hon)]; exact h4⟩
        rw [h1]; exact h3
      · have hf : s.writeOk = false := by simpa using hon
        refine ⟨s, _, ?_, rfl, by rw [if_neg (by rw [← h.on]; exact hon)]; exact h⟩
        rw [hoff hf a b hc.1 (by omega)]; exact insert_off hf a t true false
    · left
      exact ⟨by rw [hrem a b (by omega)]; rfl, if_neg hc⟩
  | append t =>
    right
    simp only [SrcBuf.apply, Doc.apply, SrcBuf.append]
    by_cases hon : s.writeOk = true
    · obtain ⟨s', h1, h2⟩ := h.insert hon text.length (le_refl _) t false false
      rw [h.orig, if_pos (show d.on = true by rw [← h.on]; exact hon)]
      exact ⟨s', _, h1, rfl, h2⟩
    · have hf : s.writeOk = false := by simpa using hon
      rw [if_neg (show ¬ d.on = true by rw [← h.on]; exact hon)]
      exact ⟨s, d, insert_off hf _ t false false, rfl, h⟩
  | prepend t =>
    right
    simp only [SrcBuf.apply, Doc.apply, SrcBuf.prepend]
    by_cases hon : s.writeOk = true
    · rw [if_neg (by simp [hon]), if_pos (show d.on = true by rw [← h.on]; exact hon)]
      refine ⟨_, _, rfl, rfl, h.buf, h.orig, h.size, h.lo, h.hi, by rw [h.pre], h.on, h.ins, h.keep, h.noMinus, h.outside, h.atEnd, h.bound, h.inj, h.freeBound, h.freeNodup, ?_⟩
      have h1 := h.full
      show s.fullLength + t.length = (t ++ s.prependbuf).length + ∑ i ∈ Finset.range s.trueSize, (s.cell i).length
      rw [List.length_append]
      omega
    · have hf : s.writeOk = false := by simpa using hon
      rw [if_pos hf, if_neg (show ¬ d.on = true by rw [← h.on]; exact hon)]
      exact ⟨s, d, rfl, rfl, h⟩
  | write b =>
    right
    exact ⟨_, _, rfl, rfl, h.buf, h.orig, h.size, h.lo, h.hi, h.pre, rfl, h.ins, h.keep, h.noMinus, h.outside, h.atEnd, h.bound, h.inj, h.freeBound, h.freeNodup, h.full⟩

/-- The same for sequences. -/
theorem run (es : List Edit) : ∀ {s : SrcBuf} {d : Doc}, Repr text s d →
    (s.run es = none ∧ d.run text es = none) ∨ ∃ s' d', s.run es = some s' ∧ d.run text es = some d' ∧ Repr text s' d' := by
  induction es with
  | nil => intro s d h; right; exact ⟨s, d, rfl, rfl, h⟩
  | cons e es ih =>
    intro s d h
    unfold SrcBuf.run Doc.run
    rw [List.foldlM_cons, List.foldlM_cons]
    rcases h.apply e with ⟨h1, h2⟩ | ⟨s', d', h1, h2, h3⟩
    · left; rw [h1, h2]; exact ⟨rfl, rfl⟩
    · rw [h1, h2]; exact ih h3

theorem length_cells (f : ℕ → List Char) (n : ℕ) : ((List.range n).flatMap f).length = ∑ i ∈ Finset.range n, (f i).length := by
  induction n with
  | zero => rfl
  | succ n ih => rw [List.range_succ, List.flatMap_append, List.length_append, ih, Finset.sum_range_succ]; simp

/-- The text. -/
theorem dump (h : Repr text s d) : s.dump = d.text text ∨ (d.pre ≠ [] ∧ s.dump = d.text text ++ [' ']) := by
  have hm := s.mapLoop_spec s.fullLength h.noMinus (s.trueSize + 1) 0 [] (by omega) (Nat.zero_le _)
  have hrest : s.rest 0 = d.range text 0 d.size := by
    unfold SrcBuf.rest; rw [h.size]; exact h.range_eq 0 d.size
  have hlen : (s.rest 0).length = ∑ i ∈ Finset.range s.trueSize, (s.cell i).length := by
    unfold SrcBuf.rest
    rw [Nat.sub_zero, ← List.range_eq_range', length_cells]
  have hf := h.full
  unfold SrcBuf.dump SrcBuf.getMapped Doc.text
  rw [hm]
  simp only [List.length_nil, Nat.zero_add, List.nil_append]
  by_cases hp : s.prependbuf.length > 0
  · rw [if_pos hp, if_neg (by omega), h.pre, hrest]
    have hne : d.pre ≠ [] := by
      intro hc; rw [h.pre, hc] at hp; simp at hp
    by_cases hc : 0 < s.trueSize ∧ s.extInd (s.trueSize - 1) = 0
    · rw [if_pos hc]; right; exact ⟨hne, by rw [List.append_assoc]⟩
    · rw [if_neg hc]; left; rw [List.append_nil]
  · left
    have h0 : s.prependbuf = [] := List.eq_nil_of_length_eq_zero (by omega)
    rw [if_neg hp, if_pos (by omega), List.take_of_length_le (by omega), ← h.pre, h0, hrest]
    rfl

theorem fullLength (h : Repr text s d) : s.fullLength = (d.text text).length := by
  have hrest : s.rest 0 = d.range text 0 d.size := by
    unfold SrcBuf.rest; rw [h.size]; exact h.range_eq 0 d.size
  have hlen : (s.rest 0).length = ∑ i ∈ Finset.range s.trueSize, (s.cell i).length := by
    unfold SrcBuf.rest
    rw [Nat.sub_zero, ← List.range_eq_range', length_cells]
  unfold Doc.text
  rw [h.full, List.length_append, ← hrest, hlen, h.pre]

theorem get (h : Repr text s d) (a b : ℕ) (hab : a ≤ b) (hb : b < d.size) : s.get a b = some (d.range text a (b + 1)) := by
  rw [s.get_spec h.noMinus a b hab (by rw [h.size]; exact hb), h.range_eq a (b + 1)]

theorem indexRangeSize (h : Repr text s d) (a b : ℕ) (hab : a ≤ b) (hb : b < d.size) :
    s.indexRangeSize a b = some (d.range text a (b + 1)).length := by
  rw [s.indexRangeSize_spec a b hab (by rw [h.size]; exact hb), h.range_eq a (b + 1)]

end Repr

end Hila
