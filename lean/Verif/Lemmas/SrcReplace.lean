import Verif.Lemmas.SrcTokens

/-! # The loop that replaces names -/

namespace Hila

open Piece SrcBuf

/-- The buffer while the scan is at position `i`: the text before has become `out`, the text after is untouched. -/
structure Scan (text out : List Char) (s : SrcBuf) (d : Doc) (i : ℕ) : Prop where
  repr : Repr text s d
  on : s.writeOk = true
  pre : d.pre = []
  size : d.size = text.length
  done : d.range text 0 i = out
  rest : ∀ j, i ≤ j → d.ins j = [] ∧ d.keep j = decide (j < text.length)

namespace Scan

variable {text out : List Char} {s : SrcBuf} {d : Doc} {i : ℕ}

theorem range_succ (d : Doc) (i : ℕ) : d.range text 0 (i + 1) = d.range text 0 i ++ d.at' text i := by
  unfold Doc.range
  rw [Nat.sub_zero, Nat.sub_zero, List.range'_1_concat, List.flatMap_append]
  simp

theorem advance1 (h : Scan text out s d i) (c : Char) (l : List Char) (hd : s.buf.drop i = c :: l) (hi : i < text.length) : Scan text (out ++ [c]) s d (i + 1) := by
  refine ⟨h.repr, h.on, h.pre, h.size, ?_, fun j hj => h.rest j (by omega)⟩
  obtain ⟨h1, h2⟩ := h.rest i (le_refl _)
  have hc := s.charAt_head i c l hd
  unfold charAt at hc
  rw [h.repr.buf, List.getD_eq_getElem?_getD, List.getElem?_append_left hi, ← List.getD_eq_getElem?_getD] at hc
  rw [range_succ, h.done]
  unfold Doc.at'
  rw [h1, h2, decide_eq_true hi, hc]
  rfl

theorem advance (h : Scan text out s d i) : ∀ (w l : List Char), s.buf.drop i = w ++ l → i + w.length ≤ text.length → Scan text (out ++ w) s d (i + w.length) := by
  intro w
  induction w generalizing out i with
  | nil => intro l _ _; simpa using h
  | cons c w ih =>
    intro l hd hi
    simp only [List.length_cons] at hi ⊢
    have h1 := h.advance1 c (w ++ l) hd (by omega)
    have h2 := ih h1 l (by have := s.drop_tail i [c] (w ++ l) hd; simpa using this) (by omega)
    rw [List.append_assoc] at h2
    rw [show i + (w.length + 1) = i + 1 + w.length by omega]
    exact h2

/-- A name is replaced. -/
theorem put (h : Scan text out s d i) (n : ℕ) (hn : 0 < n) (hi : i + n ≤ text.length) (t : List Char) :
    ∃ s' d', s.replace i (i + n - 1) t = some s' ∧ Scan text (out ++ t) s' d' (i + n) ∧ s'.buf = s.buf := by
  have hts := h.repr.size
  have hsz := h.size
  obtain ⟨s1, e1, r1⟩ := h.repr.remove h.on i (i + n - 1) (by omega) (by omega)
  have o1 : s1.writeOk = true := by rw [r1.on]; show d.on = true; rw [← h.repr.on, h.on]
  obtain ⟨s2, e2, r2⟩ := r1.insert o1 i (by omega) t true false
  refine ⟨s2, _, ?_, ⟨r2, ?_, h.pre, ?_, ?_, ?_⟩, by rw [r2.buf, h.repr.buf]⟩
  · unfold SrcBuf.replace
    rw [e1]; exact e2
  · rw [r2.on]; show d.on = true; rw [← h.repr.on, h.on]
  · show (if i = text.length then text.length + 1 else d.size) = _
    rw [if_neg (by omega), hsz]
  · have hat : ∀ j, Doc.at' text ((d.remove i (i + n - 1)).insert text i t true) j = if j = i then t else if i ≤ j ∧ j ≤ i + n - 1 then [] else d.at' text j := by
      intro j
      unfold Doc.at'
      show (if j = i then t ++ (if i ≤ i ∧ i ≤ i + n - 1 then [] else d.ins i) else (if i ≤ j ∧ j ≤ i + n - 1 then [] else d.ins j)) ++
        (if (if i ≤ j ∧ j ≤ i + n - 1 then false else d.keep j) = true then [text.getD j ' '] else []) = _
      by_cases hj : j = i
      · rw [if_pos hj, if_pos hj, if_pos (by omega), if_pos (show i ≤ j ∧ j ≤ i + n - 1 by omega)]; simp
      · rw [if_neg hj, if_neg hj]
        by_cases hj2 : i ≤ j ∧ j ≤ i + n - 1
        · rw [if_pos hj2, if_pos hj2, if_pos hj2]; simp
        · rw [if_neg hj2, if_neg hj2, if_neg hj2]
    have : ∀ m, m ≤ n → Doc.range text ((d.remove i (i + n - 1)).insert text i t true) 0 (i + m) = out ++ if m = 0 then [] else t := by
      intro m
      induction m with
      | zero =>
        intro _
        rw [if_pos rfl, List.append_nil, ← h.done]
        unfold Doc.range
        apply List.flatMap_congr
        intro j hj
        have hj2 : j < i := by
          rw [List.mem_range'_1] at hj; omega
        exact (hat j).trans (by rw [if_neg (by omega), if_neg (by omega)])
      | succ m ih =>
        intro hm
        rw [← Nat.add_assoc, range_succ, ih (by omega), if_neg (Nat.succ_ne_zero m)]
        have := hat (i + m)
        rw [this]
        by_cases h0 : m = 0
        · rw [if_pos h0, if_pos (by omega), List.append_nil]
        · rw [if_neg h0, if_neg (by omega), if_pos (by omega), List.append_nil]
    have h3 := this n (le_refl _)
    rw [if_neg (by omega)] at h3
    exact h3
  · intro j hj
    obtain ⟨h1, h2⟩ := h.rest j (by omega)
    constructor
    · show (if j = i then _ else (if i ≤ j ∧ j ≤ i + n - 1 then [] else d.ins j)) = _
      rw [if_neg (by omega), if_neg (by omega), h1]
    · show (if i ≤ j ∧ j ≤ i + n - 1 then false else d.keep j) = _
      rw [if_neg (by omega), h2]

end Scan

theorem digit_not_start (c : Char) (h : c.isDigit = true) : isWordStart c = false := by
  have h1 : c.isAlpha = false := by
    simp only [Char.isDigit, Char.isAlpha, Char.isUpper, Char.isLower, Bool.and_eq_true, decide_eq_true_eq, Bool.or_eq_false_iff, Bool.and_eq_false_iff,
      decide_eq_false_iff_not, ge_iff_le, UInt32.le_iff_toNat_le] at h ⊢
    have e1 : '0'.val.toNat = 48 := rfl
    have e2 : '9'.val.toNat = 57 := rfl
    have e3 : 'A'.val.toNat = 65 := rfl
    have e4 : 'a'.val.toNat = 97 := rfl
    constructor <;> omega
  have h2 : c ≠ '_' := by rintro rfl; exact absurd h (by decide)
  simp [isWordStart, h1, h2]

/-- A character that is skipped alone. -/
theorem loop_skip (stop : ℕ) (a b : List (List Char)) (fuel i n : ℕ) (s : SrcBuf) (hi : i ≤ stop) (h1 : isWordStart (s.charAt i) = false)
    (h2 : s.charAt i = '/' → i + 1 ≤ stop → s.charAt (i + 1) ≠ '/' ∧ s.charAt (i + 1) ≠ '*') (h3 : s.charAt i ≠ '#') (h4 : s.charAt i ≠ '"')
    (h5 : s.charAt i ≠ '\'') : replaceLoop stop a b (fuel + 1) i n s = replaceLoop stop a b fuel (i + 1) n s := by
  rw [replaceLoop, if_pos hi, if_neg (by rw [h1]; decide), if_neg (by rintro ⟨h6, h7, h8⟩; exact (h2 h7 h6).1 h8),
    if_neg (by rintro ⟨h6, h7, h8⟩; exact (h2 h7 h6).2 h8), if_neg h3, if_neg h4, if_neg h5]

theorem loop_digits (stop : ℕ) (a b : List (List Char)) (s : SrcBuf) (n : ℕ) : ∀ (ds l : List Char) fuel i, s.buf.drop i = ds ++ l → (∀ c ∈ ds, c.isDigit = true) →
    i + ds.length ≤ stop + 1 → replaceLoop stop a b (fuel + ds.length) i n s = replaceLoop stop a b fuel (i + ds.length) n s := by
  intro ds
  induction ds with
  | nil => intro l fuel i _ _ _; rfl
  | cons c ds ih =>
    intro l fuel i hd hall hle
    simp only [List.length_cons] at hle ⊢
    have hc := s.charAt_head i c _ hd
    have hdig := hall c List.mem_cons_self
    have hne : ∀ x : Char, x.isDigit = false → s.charAt i ≠ x := by
      intro x hx hcx; rw [hc] at hcx; rw [hcx, hx] at hdig; cases hdig
    rw [← Nat.add_assoc, loop_skip stop a b _ i n s (by omega) (by rw [hc]; exact digit_not_start c hdig) (fun h => absurd h (hne '/' (by decide)))
      (hne '#' (by decide)) (hne '"' (by decide)) (hne '\'' (by decide))]
    rw [ih l fuel (i + 1) (by have := s.drop_tail i [c] (ds ++ l) hd; simpa using this) (fun x hx => hall x (List.mem_cons_of_mem _ hx)) (by omega)]
    congr 1
    omega

/-- A word is scanned. -/
theorem loop_word (stop : ℕ) (a b : List (List Char)) (fuel i n : ℕ) (s : SrcBuf) (w l : List Char) (hd : s.buf.drop i = w ++ l) (hw : ∃ c r, w = c :: r ∧ Start c)
    (hall : ∀ c ∈ w, Inner c) (hle : i + w.length ≤ stop + 1) (hend : i + w.length = stop + 1 ∨ ∀ c, l.head? = some c → ¬ Inner c) (hl : l ≠ []) :
    replaceLoop stop a b (fuel + 1) i n s = match matchToken w a with
      | some j => (s.replace i (i + w.length - 1) (b.getD j [])).bind fun s' => replaceLoop stop a b fuel (i + w.length) (n + 1) s'
      | none => replaceLoop stop a b fuel (i + w.length) n s := by
  obtain ⟨c, r, rfl, hc⟩ := hw
  have hlen : (c :: r).length = r.length + 1 := rfl
  have hst : isWordStart (s.charAt i) = true := by rw [s.charAt_head i c _ hd]; exact (isWordStart_iff c).mpr hc
  have hscan := s.scanWhile_spec isWordChar stop (c :: r) (stop + 1) i l hd (fun x hx => (isWordChar_iff x).mpr (hall x hx)) hle
    (by
      rcases hend with h | h
      · exact Or.inl h
      · right; intro x hx
        have := h x hx
        rw [← isWordChar_iff] at this
        simpa using this) hl (by omega)
  rw [replaceLoop, if_pos (by omega), if_pos hst]
  dsimp only
  rw [hscan]
  have htok : (s.buf.drop i).take (i + (c :: r).length - i) = c :: r := by
    rw [hd, Nat.add_sub_cancel_left, List.take_left]
  rw [htok]
  rfl

/-- What the scanner cannot read: a name of the table at the end of a number, a character constant longer than one character or escape, a comment that begins
with a slash. -/
def Piece.Plain (a : List (List Char)) : Piece → Prop
  | .number _ suf => suf ∉ a
  | .char b => (∃ c, b = [c]) ∨ ∃ c, b = ['\\', c]
  | .blockComment b => b.head? ≠ some '/'
  | _ => True

theorem matchToken_none (w : List Char) (a : List (List Char)) (h : w ∉ a) : matchToken w a = none := by
  unfold matchToken
  rw [List.findIdx?_eq_none_iff]
  intro x hx
  simp only [decide_eq_false_iff_not]
  rintro rfl; exact h hx

theorem start_not (c x : Char) (hx : isWordStart x = false) (h : c = x) : isWordStart c = false := by rw [h]; exact hx

/-- The loop does what the specification says. -/
theorem loop_spec (text : List Char) (stop : ℕ) (a b : List (List Char)) (hab : a.length = b.length) : ∀ (ps : List Piece), Lexed ps → (∀ p ∈ ps, p.Plain a) →
    ∀ fuel i n s d out tail, Scan text out s d i → s.buf.drop i = textOf ps ++ tail → 2 ≤ tail.length → stop + 1 = i + (textOf ps).length →
      (textOf ps).length < fuel →
      ∃ s' d', replaceLoop stop a b fuel i n s = some (s', n + hits (a.zip b) ps) ∧ Scan text (out ++ subst (a.zip b) ps) s' d' (stop + 1) := by
  intro ps
  induction ps with
  | nil =>
    intro _ _ fuel i n s d out tail h hd ht hs hf
    cases fuel with
    | zero => simp at hf
    | succ fuel =>
      have hs2 : stop + 1 = i := by simpa [textOf] using hs
      refine ⟨s, d, ?_, ?_⟩
      · rw [replaceLoop, if_neg (by omega)]; rfl
      · rw [hs2]; simpa [subst] using h
  | cons p ps ih =>
    intro hlex hplain fuel i n s d out tail h hd ht hs hf
    obtain ⟨hok, hfol, hlex'⟩ := hlex
    have ih := ih hlex' fun q hq => hplain q (List.mem_cons_of_mem _ hq)
    have hpl := hplain p List.mem_cons_self
    have htext : textOf (p :: ps) = p.text ++ textOf ps := by simp [textOf]
    rw [htext] at hd hs hf
    rw [List.append_assoc] at hd
    rw [List.length_append] at hs hf
    have hlen : i + (p.text.length + (textOf ps).length) + tail.length = text.length + 2 := by
      have h1 := congrArg List.length hd
      rw [h.repr.buf] at h1
      simp only [List.length_drop, List.length_append, List.length_cons, List.length_nil] at h1
      omega
    have hd2 : s.buf.drop (i + p.text.length) = textOf ps ++ tail := s.drop_tail i _ _ hd
    have hne : textOf ps ++ tail ≠ [] := by
      intro hc
      have := congrArg List.length hc
      rw [List.length_append, List.length_nil] at this; omega
    -- the end of the piece, seen from the scanner
    have hendOf : ∀ (P : Char → Prop), (∀ c, (textOf ps).head? = some c → P c) → i + p.text.length = stop + 1 ∨ ∀ c, (textOf ps ++ tail).head? = some c → P c := by
      intro P hP
      by_cases he : textOf ps = []
      · left
        have h0 : (textOf ps).length = 0 := by rw [he]; rfl
        omega
      · right
        intro c hc
        rw [List.head?_append_of_ne_nil _ he] at hc
        exact hP c hc
    -- a piece that is skipped in one step
    have one : ∀ fuel', fuel = fuel' + 1 → replaceLoop stop a b (fuel' + 1) i n s = replaceLoop stop a b fuel' (i + p.text.length) n s →
        0 < p.text.length → (hits (a.zip b) (p :: ps) = hits (a.zip b) ps) → (subst (a.zip b) (p :: ps) = p.text ++ subst (a.zip b) ps) →
        ∃ s' d', replaceLoop stop a b fuel i n s = some (s', n + hits (a.zip b) (p :: ps)) ∧ Scan text (out ++ subst (a.zip b) (p :: ps)) s' d' (stop + 1) := by
      intro fuel' hfu hstep hpos hh hsub
      have h1 := h.advance p.text (textOf ps ++ tail) hd (by omega)
      obtain ⟨s', d', e1, e2⟩ := ih fuel' (i + p.text.length) n s d (out ++ p.text) tail h1 hd2 ht (by omega) (by omega)
      refine ⟨s', d', ?_, ?_⟩
      · rw [hfu, hstep, e1, hh]
      · rw [hsub, ← List.append_assoc]; exact e2
    obtain ⟨fuel', hfu⟩ : ∃ f, fuel = f + 1 := ⟨fuel - 1, by omega⟩
    cases p with
    | word w =>
      obtain ⟨hw, hall⟩ := hok
      have hwl : 0 < w.length := by obtain ⟨c, r, rfl, _⟩ := hw; simp
      simp only [Piece.text] at hd hs hf hlen hd2 one hendOf
      have hstep := loop_word stop a b fuel' i n s w (textOf ps ++ tail) hd hw hall (by omega) (hendOf (fun c => ¬ Inner c) hfol) hne
      have hlk := matchToken_lookup w a b hab
      cases hm : matchToken w a with
      | none =>
        rw [hm] at hstep hlk
        exact one fuel' hfu hstep hwl (by simp [hits, ← hlk]) (by simp [subst, ← hlk])
      | some j =>
        rw [hm] at hstep hlk
        obtain ⟨s1, d1, e1, r1, hb1⟩ := h.put w.length hwl (by omega) (b.getD j [])
        dsimp only at hstep hlk
        rw [e1, Option.bind_some] at hstep
        obtain ⟨s', d', e2, e3⟩ := ih fuel' (i + w.length) (n + 1) s1 d1 (out ++ b.getD j []) tail r1 (by rw [hb1]; exact hd2) ht (by omega) (by omega)
        refine ⟨s', d', ?_, ?_⟩
        · rw [hfu, hstep, e2]
          have : hits (a.zip b) (.word w :: ps) = hits (a.zip b) ps + 1 := by simp [hits, ← hlk]
          rw [this]
          congr 2
          omega
        · have : subst (a.zip b) (.word w :: ps) = b.getD j [] ++ subst (a.zip b) ps := by simp [subst, ← hlk]
          rw [this, ← List.append_assoc]; exact e3
    | number ds suf =>
      obtain ⟨hds, hdig, hsuf, hall⟩ := hok
      have hdl : 0 < ds.length := List.length_pos_iff.mpr hds
      simp only [Piece.text, List.length_append] at hd hs hf hlen hd2 one hendOf
      rw [List.append_assoc] at hd
      have h1 := h.advance (ds ++ suf) (textOf ps ++ tail) (by rw [List.append_assoc]; exact hd) (by rw [List.length_append]; omega)
      have hh : hits (a.zip b) (.number ds suf :: ps) = hits (a.zip b) ps := by simp [hits]
      have hsub : subst (a.zip b) (.number ds suf :: ps) = (ds ++ suf) ++ subst (a.zip b) ps := by simp [subst, Piece.text]
      rcases hsuf with rfl | hsuf
      · obtain ⟨f2, hf2⟩ : ∃ f, fuel = f + ds.length := ⟨fuel - ds.length, by omega⟩
        have hstep := loop_digits stop a b s n ds _ f2 i hd hdig (by simp at hs; omega)
        simp only [List.append_nil, List.length_nil, Nat.add_zero] at *
        obtain ⟨s', d', e1, e2⟩ := ih f2 (i + ds.length) n s d (out ++ ds) tail h1 hd2 ht (by omega) (by omega)
        refine ⟨s', d', ?_, ?_⟩
        · rw [hf2, hstep, e1, hh]
        · rw [hsub, ← List.append_assoc]; exact e2
      · have hsl : 0 < suf.length := by obtain ⟨c, r, rfl, _⟩ := hsuf; simp
        obtain ⟨f2, hf2⟩ : ∃ f, fuel = (f + 1) + ds.length := ⟨fuel - ds.length - 1, by omega⟩
        have hstep := loop_digits stop a b s n ds _ (f2 + 1) i hd hdig (by omega)
        have hd3 := s.drop_tail i ds _ hd
        have hstep2 := loop_word stop a b f2 (i + ds.length) n s suf (textOf ps ++ tail) hd3 hsuf hall (by omega)
          (by
            have := hendOf (fun c => ¬ Inner c) hfol
            rw [← Nat.add_assoc] at this
            exact this) hne
        rw [matchToken_none suf a hpl] at hstep2
        dsimp only at hstep2
        rw [Nat.add_assoc] at hstep2
        rw [List.length_append] at h1
        obtain ⟨s', d', e1, e2⟩ := ih f2 (i + (ds.length + suf.length)) n s d (out ++ (ds ++ suf)) tail h1 hd2 ht (by omega) (by omega)
        refine ⟨s', d', ?_, ?_⟩
        · rw [hf2, hstep, hstep2, e1, hh]
        · rw [hsub, ← List.append_assoc]; exact e2
    | lineComment body =>
      have hok : '\n' ∉ body := hok
      simp only [Piece.text, List.length_cons] at hd hs hf hlen hd2 one hendOf
      refine one fuel' hfu ?_ (by omega) (by simp [hits]) (by simp [subst, Piece.text])
      have hc0 : s.charAt i = '/' := s.charAt_head i _ _ hd
      have hc1 : s.charAt (i + 1) = '/' := by have := s.charAt_drop i _ hd 1; simpa using this
      rw [replaceLoop, if_pos (by omega), if_neg (by rw [hc0]; decide), if_pos ⟨by omega, hc0, hc1⟩]
      have hscan := s.scanWhile_spec (fun c => decide (c ≠ '\n')) stop ('/' :: body) (stop + 1) (i + 1) (textOf ps ++ tail)
        (by have := s.drop_tail i ['/'] _ hd; simpa using this)
        (by
          intro c hc
          simp only [decide_eq_true_eq]
          rintro rfl
          rcases List.mem_cons.mp hc with h2 | h2
          · exact absurd h2 (by decide)
          · exact hok h2)
        (by simp only [List.length_cons]; omega)
        (by
          rcases hendOf (fun c => c = '\n') hfol with h2 | h2
          · left; simp only [List.length_cons]; omega
          · right; intro c hc; rw [h2 c hc]; decide) hne (by simp only [List.length_cons]; omega)
      rw [hscan]
      congr 1
      simp only [List.length_cons]; omega
    | directive body =>
      have hok : '\n' ∉ body := hok
      simp only [Piece.text, List.length_cons] at hd hs hf hlen hd2 one hendOf
      refine one fuel' hfu ?_ (by omega) (by simp [hits]) (by simp [subst, Piece.text])
      have hc0 : s.charAt i = '#' := s.charAt_head i _ _ hd
      rw [replaceLoop, if_pos (by omega), if_neg (by rw [hc0]; decide), if_neg (by rintro ⟨_, h2, _⟩; rw [hc0] at h2; exact absurd h2 (by decide)),
        if_neg (by rintro ⟨_, h2, _⟩; rw [hc0] at h2; exact absurd h2 (by decide)), if_pos hc0]
      have hscan := s.scanWhile_spec (fun c => decide (c ≠ '\n')) stop body (stop + 1) (i + 1) (textOf ps ++ tail)
        (by have := s.drop_tail i ['#'] _ hd; simpa using this)
        (by
          intro c hc
          simp only [decide_eq_true_eq]
          rintro rfl
          exact hok hc)
        (by omega)
        (by
          rcases hendOf (fun c => c = '\n') hfol with h2 | h2
          · left; omega
          · right; intro c hc; rw [h2 c hc]; decide) hne (by omega)
      rw [hscan]
      congr 1
      omega
    | blockComment body =>
      have hok : ¬ ['*', '/'] <:+: body ++ ['*'] := hok
      have hpl : body.head? ≠ some '/' := hpl
      simp only [Piece.text, List.length_cons, List.length_append, List.length_nil] at hd hs hf hlen hd2 one hendOf
      refine one fuel' hfu ?_ (by omega) (by simp [hits]) (by simp [subst, Piece.text])
      have hc0 : s.charAt i = '/' := s.charAt_head i _ _ hd
      have hc1 : s.charAt (i + 1) = '*' := by have := s.charAt_drop i _ hd 1; simpa using this
      rw [replaceLoop, if_pos (by omega), if_neg (by rw [hc0]; decide), if_neg (by rintro ⟨_, _, h2⟩; rw [hc1] at h2; exact absurd h2 (by decide)),
        if_pos ⟨by omega, hc0, hc1⟩]
      have hfind := s.findClose_spec ('*' :: body) s.buf.length (i + 1) (textOf ps ++ tail)
        (by have := s.drop_tail i ['/'] _ hd; simpa using this)
        (by
          rintro ⟨x, y, hxy⟩
          cases x with
          | nil =>
            have h2 : '/' :: y = body ++ ['*'] := by simpa using hxy
            cases body with
            | nil => exact absurd (List.cons.inj h2).1 (by decide)
            | cons c r => exact hpl (by rw [← (List.cons.inj h2).1]; rfl)
          | cons c x =>
            refine hok ⟨x, y, ?_⟩
            have := (List.cons.inj (by simpa using hxy : c :: (x ++ ('*' :: '/' :: y)) = '*' :: (body ++ ['*']))).2
            rw [← this]; simp)
        (by rw [h.repr.buf]; simp only [List.length_cons, List.length_append, List.length_nil]; omega)
      rw [hfind]
      simp only [Option.bind_eq_bind, Option.bind_some]
      congr 1
      simp only [List.length_cons]; omega
    | string body =>
      have hok : quoted '"' body = true := hok
      simp only [Piece.text, List.length_cons, List.length_append, List.length_nil] at hd hs hf hlen hd2 one hendOf
      refine one fuel' hfu ?_ (by omega) (by simp [hits]) (by simp [subst, Piece.text])
      have hc0 : s.charAt i = '"' := s.charAt_head i _ _ hd
      rw [replaceLoop, if_pos (by omega), if_neg (by rw [hc0]; decide), if_neg (by rintro ⟨_, h2, _⟩; rw [hc0] at h2; exact absurd h2 (by decide)),
        if_neg (by rintro ⟨_, h2, _⟩; rw [hc0] at h2; exact absurd h2 (by decide)), if_neg (by rw [hc0]; decide), if_pos hc0]
      have hscan := s.scanString_spec stop body.length body (stop + 1) (i + 1) (textOf ps ++ tail) (le_refl _)
        (by have := s.drop_tail i ['"'] _ hd; simpa using this) hok (by omega) (by omega)
      rw [hscan]
      congr 1
      omega
    | char body =>
      obtain ⟨hne2, hq⟩ : body ≠ [] ∧ quoted '\'' body = true := hok
      simp only [Piece.text, List.length_cons, List.length_append, List.length_nil] at hd hs hf hlen hd2 one hendOf
      refine one fuel' hfu ?_ (by omega) (by simp [hits]) (by simp [subst, Piece.text])
      have hc0 : s.charAt i = '\'' := s.charAt_head i _ _ hd
      rw [replaceLoop, if_pos (by omega), if_neg (by rw [hc0]; decide), if_neg (by rintro ⟨_, h2, _⟩; rw [hc0] at h2; exact absurd h2 (by decide)),
        if_neg (by rintro ⟨_, h2, _⟩; rw [hc0] at h2; exact absurd h2 (by decide)), if_neg (by rw [hc0]; decide), if_neg (by rw [hc0]; decide), if_pos hc0]
      have hc1 := s.charAt_drop i _ hd 1
      rcases hpl with ⟨c, rfl⟩ | ⟨c, rfl⟩
      · have hcc : s.charAt (i + 1) = c := by simpa using hc1
        have hcb : c ≠ '\\' := by
          intro hc; rw [hc] at hq; exact absurd hq (by decide)
        rw [if_neg (by rw [hcc]; exact hcb)]
        rfl
      · have hcc : s.charAt (i + 1) = '\\' := by simpa using hc1
        rw [if_pos hcc]
        rfl
    | other c =>
      obtain ⟨h1, h2, h3, h4⟩ : ¬ Inner c ∧ c ≠ '#' ∧ c ≠ '"' ∧ c ≠ '\'' := hok
      simp only [Piece.text, List.length_cons, List.length_nil] at hd hs hf hlen hd2 one hendOf
      refine one fuel' hfu ?_ (by omega) (by simp [hits]) (by simp [subst, Piece.text])
      have hc0 : s.charAt i = c := s.charAt_head i _ _ hd
      refine loop_skip stop a b fuel' i n s (by omega) ?_ ?_ (by rw [hc0]; exact h2) (by rw [hc0]; exact h3) (by rw [hc0]; exact h4)
      · by_contra hc
        have hst : isWordStart c = true := by rw [← hc0]; simpa using hc
        rw [isWordStart_iff] at hst
        apply h1
        rcases hst with h5 | h5
        · left; simp [Char.isAlphanum, h5]
        · right; exact h5
      · intro hsl hle
        rw [hc0] at hsl
        have hx : textOf ps ≠ [] := by
          intro hc; rw [hc] at hs; simp at hs; omega
        obtain ⟨c', r, hcr⟩ := List.exists_cons_of_ne_nil hx
        have h5 := hfol hsl c' (by rw [hcr]; rfl)
        have h6 : s.charAt (i + 1) = c' := by
          refine s.charAt_head (i + 1) c' (r ++ tail) ?_
          rw [hd2, hcr]; rfl
        rw [h6]; exact h5

end Hila
