import Verif.Lemmas.SrcReplace

/-!
# C71: replacing names in a source text replaces names only

Used to put the actual template arguments in the place of the template parameters. The specification splits the text into the pieces a compiler sees
(`Piece.Lexed`) and replaces the names among them (`Piece.subst`).
-/

namespace Hila

open Piece SrcBuf

/-- **C71.** In the range of the text given by `ps`, every name of the table is replaced by its value, and nothing else is changed: not inside longer names, comments,
strings, character constants or preprocessor lines. The number of replacements is returned. Missing part: what `Plain` excludes, see `C71_suffix_wrong`,
`C71_char_wrong`, `C71_comment_wrong`. -/
theorem C71_replace_partial (before after : List Char) (ps : List Piece) (names values : List (List Char)) (hlen : names.length = values.length)
    (hlex : Lexed ps) (hplain : ∀ p ∈ ps, p.Plain names) (hne : textOf ps ≠ []) :
    ∃ s, (create (before ++ textOf ps ++ after)).replaceTokens before.length (before.length + (textOf ps).length - 1) names values =
        some (s, hits (names.zip values) ps) ∧
      s.dump = before ++ subst (names.zip values) ps ++ after := by
  have hpos : 0 < (textOf ps).length := List.length_pos_iff.mpr hne
  have h0 : Scan (before ++ textOf ps ++ after) [] (create (before ++ textOf ps ++ after)) (Doc.init (before ++ textOf ps ++ after)) 0 :=
    ⟨Repr.create _, rfl, rfl, rfl, rfl, fun j _ => ⟨rfl, rfl⟩⟩
  have hbuf : (create (before ++ textOf ps ++ after)).buf = before ++ (textOf ps ++ (after ++ [' ', ' '])) := by
    show before ++ textOf ps ++ after ++ [' ', ' '] = _
    simp
  have hN : (before ++ textOf ps ++ after).length = before.length + (textOf ps).length + after.length := by simp; omega
  have h1 := h0.advance before (textOf ps ++ (after ++ [' ', ' '])) (by rw [List.drop_zero]; exact hbuf) (by omega)
  rw [List.nil_append, Nat.zero_add] at h1
  have hdrop : (create (before ++ textOf ps ++ after)).buf.drop before.length = textOf ps ++ (after ++ [' ', ' ']) := by rw [hbuf, List.drop_left]
  obtain ⟨s', d', e1, e2⟩ := loop_spec (before ++ textOf ps ++ after) (before.length + (textOf ps).length - 1) names values hlen ps hlex hplain
    (before.length + (textOf ps).length - 1 + 2) before.length 0 _ _ before (after ++ [' ', ' ']) h1 hdrop (by simp) (by omega) (by omega)
  rw [Nat.zero_add] at e1
  refine ⟨s', ?_, ?_⟩
  · unfold replaceTokens
    rw [if_neg (by simp [create]), if_pos ⟨by omega, by show _ < (before ++ textOf ps ++ after).length; omega⟩]
    exact e1
  · have h3 : before.length + (textOf ps).length - 1 + 1 = (before ++ textOf ps).length := by rw [List.length_append]; omega
    rw [h3] at e2
    have h4 := e2.advance after [' ', ' '] (by
      rw [e2.repr.buf, List.append_assoc (before ++ textOf ps), List.drop_left]) (by rw [hN, List.length_append])
    rcases h4.repr.dump with h5 | ⟨h5, _⟩
    · rw [h5]
      unfold Doc.text
      rw [h4.pre, h4.size, hN, ← List.length_append, h4.done]
      rfl
    · exact absurd h4.pre h5

/-- `T x=Ty; // T` with `T` ↦ `int`, in a larger text. -/
example : Lexed [.word ['T'], .other ' ', .word ['x'], .other '=', .word "Ty".toList, .other ';', .lineComment " T".toList] ∧
    subst [("T".toList, "int".toList)] [.word ['T'], .other ' ', .word ['x'], .other '=', .word "Ty".toList, .other ';', .lineComment " T".toList] =
      "int x=Ty;// T".toList := by
  refine ⟨?_, by decide +kernel⟩
  refine ⟨⟨⟨'T', [], rfl, Or.inl (by decide)⟩, by simp [Inner]⟩, ?_, ⟨by simp [Inner], by decide, by decide, by decide⟩, ?_,
    ⟨⟨'x', [], rfl, Or.inl (by decide)⟩, by simp [Inner]⟩, ?_, ⟨by simp [Inner], by decide, by decide, by decide⟩, ?_,
    ⟨⟨'T', ['y'], rfl, Or.inl (by decide)⟩, ?_⟩, ?_, ⟨by simp [Inner], by decide, by decide, by decide⟩, ?_, by show '\n' ∉ " T".toList; decide, ?_, trivial⟩
  · intro c hc; obtain rfl : ' ' = c := by simpa [textOf, text] using hc
    simp [Inner]
  · intro hc; exact absurd hc (by decide)
  · intro c hc; obtain rfl : '=' = c := by simpa [textOf, text] using hc
    simp [Inner]
  · intro hc; exact absurd hc (by decide)
  · intro c hc
    have : c = 'T' ∨ c = 'y' := by simpa using hc
    rcases this with rfl | rfl <;> exact Or.inl (by decide)
  · intro c hc; obtain rfl : ';' = c := by simpa [textOf, text] using hc
    simp [Inner]
  · intro hc; exact absurd hc (by decide)
  · intro c hc; simp [textOf] at hc

example : ((create "{T x=Ty;// T\n T}".toList).replaceTokens 1 11 ["T".toList] ["int".toList]).map (fun r => (r.1.dump, r.2)) =
    some ("{int x=Ty;// T\n T}".toList, 1) := by decide +kernel

/-- **C71 fails for numbers with a suffix.** A template parameter `U` is replaced inside the number `1U`; likewise `f` in `1.0f` and `L` in `1L`. -/
theorem C71_suffix_wrong : ∃ ps names values, Lexed ps ∧ names.length = values.length ∧ (∀ w, Piece.word w ∉ ps) ∧
    ((create (textOf ps)).replaceTokens 0 ((textOf ps).length - 1) names values).map (fun r => r.1.dump) ≠ some (subst (names.zip values) ps) ∧
    ((create (textOf ps)).replaceTokens 0 ((textOf ps).length - 1) names values).map (fun r => r.1.dump) = some "1double".toList := by
  refine ⟨[.number ['1'] ['U']], [['U']], ["double".toList], ?_, rfl, by simp, by decide +kernel, by decide +kernel⟩
  refine ⟨⟨by simp, by simp, Or.inr ⟨'U', [], rfl, Or.inl (by decide)⟩, by simp [Inner]⟩, ?_, trivial⟩
  intro c hc; simp [textOf] at hc

/-- **C71 fails for longer character constants.** After `'\012'` the name that follows is not replaced. -/
theorem C71_char_wrong : ∃ ps names values, Lexed ps ∧ names.length = values.length ∧
    ((create (textOf ps)).replaceTokens 0 ((textOf ps).length - 1) names values).map (fun r => r.1.dump) ≠ some (subst (names.zip values) ps) ∧
    ((create (textOf ps)).replaceTokens 0 ((textOf ps).length - 1) names values).map (fun r => r.1.dump) = some "'\\012'+T".toList := by
  refine ⟨[.char "\\012".toList, .other '+', .word ['T']], [['T']], ["x".toList], ?_, rfl, by decide +kernel, by decide +kernel⟩
  refine ⟨⟨by decide, by decide⟩, trivial, ⟨by simp [Inner], by decide, by decide, by decide⟩, ?_, ⟨⟨'T', [], rfl, Or.inl (by decide)⟩, by simp [Inner]⟩, ?_, trivial⟩
  · intro hc; exact absurd hc (by decide)
  · intro c hc; simp [textOf] at hc

/-- **C71 fails for a comment that begins with a slash.** The scanner takes `/*/` as a whole comment; names in the comment are then replaced. -/
theorem C71_comment_wrong : ∃ ps names values, Lexed ps ∧ names.length = values.length ∧
    ((create (textOf ps)).replaceTokens 0 ((textOf ps).length - 1) names values).map (fun r => r.1.dump) ≠ some (subst (names.zip values) ps) ∧
    ((create (textOf ps)).replaceTokens 0 ((textOf ps).length - 1) names values).map (fun r => r.1.dump) = some "/*/x*/".toList := by
  refine ⟨[.blockComment "/T".toList], [['T']], ["x".toList], ?_, rfl, by decide +kernel, by decide +kernel⟩
  refine ⟨?_, trivial, trivial⟩
  show ¬ ['*', '/'] <:+: ['/', 'T', '*']
  decide

end Hila
