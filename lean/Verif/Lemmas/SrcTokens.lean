import Verif.Lemmas.SrcBufEdit
import Verif.Model.SourceTokens

/-! # Lemmas about the replacement of names -/

namespace Hila

namespace SrcBuf

open Piece

theorem charAt_drop (s : SrcBuf) (i : ℕ) (l : List Char) (h : s.buf.drop i = l) (k : ℕ) : s.charAt (i + k) = l.getD k ' ' := by
  unfold charAt
  rw [← h, List.getD_eq_getElem?_getD, List.getD_eq_getElem?_getD, List.getElem?_drop]

theorem charAt_head (s : SrcBuf) (i : ℕ) (c : Char) (l : List Char) (h : s.buf.drop i = c :: l) : s.charAt i = c := by
  have := s.charAt_drop i _ h 0
  simpa using this

theorem drop_tail (s : SrcBuf) (i : ℕ) (w l : List Char) (h : s.buf.drop i = w ++ l) : s.buf.drop (i + w.length) = l := by
  rw [← List.drop_drop, h, List.drop_left]

theorem isWordStart_iff (c : Char) : isWordStart c = true ↔ Start c := by simp [isWordStart, Start]

theorem isWordChar_iff (c : Char) : isWordChar c = true ↔ Inner c := by simp [isWordChar, Inner]

theorem scanWhile_spec (s : SrcBuf) (p : Char → Bool) (stop : ℕ) : ∀ (w : List Char) fuel i l, s.buf.drop i = w ++ l → (∀ c ∈ w, p c = true) →
    i + w.length ≤ stop + 1 → (i + w.length = stop + 1 ∨ ∀ c, l.head? = some c → p c = false) → l ≠ [] → w.length ≤ fuel →
    s.scanWhile p stop fuel i = i + w.length := by
  intro w
  induction w with
  | nil =>
    intro fuel i l h hp hle hend hl hf
    cases fuel with
    | zero => rfl
    | succ fuel =>
      unfold scanWhile
      rw [if_neg]
      · rfl
      · rintro ⟨h1, h2⟩
        rcases hend with h3 | h3
        · simp at h3; omega
        · obtain ⟨c, r, rfl⟩ := List.exists_cons_of_ne_nil hl
          rw [s.charAt_head i c r h, h3 c rfl] at h2
          cases h2
  | cons c w ih =>
    intro fuel i l h hp hle hend hl hf
    cases fuel with
    | zero => simp at hf
    | succ fuel =>
      simp only [List.length_cons] at hle hend hf ⊢
      unfold scanWhile
      rw [if_pos ⟨by omega, by rw [s.charAt_head i c _ h]; exact hp c List.mem_cons_self⟩]
      rw [ih fuel (i + 1) l (by have := s.drop_tail i [c] (w ++ l) h; simpa using this) (fun x hx => hp x (List.mem_cons_of_mem _ hx)) (by omega)
        (by rcases hend with h1 | h1; · left; omega
            · right; exact h1) hl (by omega)]
      omega

theorem scanString_spec (s : SrcBuf) (stop : ℕ) : ∀ (n : ℕ) (b : List Char) fuel i l, b.length ≤ n → s.buf.drop i = b ++ '"' :: l → quoted '"' b = true →
    i + b.length ≤ stop → b.length ≤ fuel → s.scanString stop fuel i = i + b.length := by
  intro n
  induction n with
  | zero =>
    intro b fuel i l hn h hq hle hf
    have : b = [] := List.eq_nil_of_length_eq_zero (by omega)
    subst this
    cases fuel with
    | zero => rfl
    | succ fuel =>
      unfold scanString
      rw [if_neg (by rintro ⟨_, h2⟩; exact h2 (s.charAt_head i _ _ h))]; rfl
  | succ n ih =>
    intro b fuel i l hn h hq hle hf
    match b, hn, h, hq, hle, hf with
    | [], hn, h, hq, hle, hf =>
      cases fuel with
      | zero => rfl
      | succ fuel =>
        unfold scanString
        rw [if_neg (by rintro ⟨_, h2⟩; exact h2 (s.charAt_head i _ _ h))]; rfl
    | [c], hn, h, hq, hle, hf =>
      cases fuel with
      | zero => simp at hf
      | succ fuel =>
        simp only [quoted, decide_eq_true_eq] at hq
        have hc := s.charAt_head i c _ h
        simp only [List.length_cons, List.length_nil] at hle hf ⊢
        unfold scanString
        rw [if_pos ⟨by omega, by rw [hc]; exact hq.2⟩, if_neg (by rw [hc]; exact hq.1)]
        have := ih [] fuel (i + 1) l (by simp) (by have := s.drop_tail i [c] _ h; simpa using this) rfl (by simp; omega) (by simp)
        simpa using this
    | c :: c' :: r, hn, h, hq, hle, hf =>
      cases fuel with
      | zero => simp at hf
      | succ fuel =>
        have hc := s.charAt_head i c _ h
        simp only [List.length_cons] at hn hle hf ⊢
        simp only [quoted] at hq
        unfold scanString
        by_cases hb : c = '\\'
        · rw [if_pos hb] at hq
          rw [if_pos ⟨by omega, by rw [hc, hb]; decide⟩, if_pos (by rw [hc, hb])]
          rw [ih r fuel (i + 2) l (by omega) (by have := s.drop_tail i [c, c'] (r ++ '"' :: l) h; simpa using this) hq (by omega) (by omega)]
          omega
        · rw [if_neg hb, Bool.and_eq_true, decide_eq_true_eq] at hq
          rw [if_pos ⟨by omega, by rw [hc]; exact hq.1⟩, if_neg (by rw [hc]; exact hb)]
          rw [ih (c' :: r) fuel (i + 1) l (by simp; omega) (by have := s.drop_tail i [c] (c' :: r ++ '"' :: l) h; simpa using this) hq.2 (by simp; omega) (by simp; omega)]
          simp; omega

theorem findClose_spec (s : SrcBuf) : ∀ (b : List Char) fuel i l, s.buf.drop i = b ++ '*' :: '/' :: l → (¬ ['*', '/'] <:+: b ++ ['*']) → b.length < fuel →
    s.findClose fuel i = some (i + b.length) := by
  intro b
  induction b with
  | nil =>
    intro fuel i l h _ hf
    cases fuel with
    | zero => simp at hf
    | succ fuel =>
      have hlen : i + 1 < s.buf.length := by
        have := congrArg List.length h
        simp at this; omega
      unfold findClose
      rw [if_pos hlen, if_pos ⟨s.charAt_head i _ _ h, by have := s.charAt_drop i _ h 1; simpa using this⟩]; rfl
  | cons c b ih =>
    intro fuel i l h hno hf
    cases fuel with
    | zero => simp at hf
    | succ fuel =>
      have hlen : i + 1 < s.buf.length := by
        have := congrArg List.length h
        simp at this; omega
      unfold findClose
      rw [if_pos hlen, if_neg]
      · rw [ih fuel (i + 1) l (by have := s.drop_tail i [c] (b ++ '*' :: '/' :: l) h; simpa using this) ?_ (by simp at hf; omega)]
        · simp; omega
        · intro hc
          refine hno (hc.trans ?_)
          exact ⟨[c], [], by simp⟩
      · rintro ⟨h1, h2⟩
        rw [s.charAt_head i _ _ h] at h1
        have h3 := s.charAt_drop i _ h 1
        rw [h2] at h3
        apply hno
        cases b with
        | nil => simp at h3
        | cons c2 b2 =>
          have : c2 = '/' := by simpa using h3.symm
          rw [h1, this]
          exact ⟨[], b2 ++ ['*'], by simp⟩

theorem matchToken_lookup (tok : List Char) : ∀ (a b : List (List Char)), a.length = b.length →
    (match matchToken tok a with | some j => some (b.getD j []) | none => none) = lookup (a.zip b) tok := by
  intro a
  induction a with
  | nil => intro b _; rfl
  | cons x a ih =>
    intro b hb
    cases b with
    | nil => simp at hb
    | cons y b =>
      have ih := ih b (by simpa using hb)
      unfold matchToken lookup at *
      rw [List.findIdx?_cons, List.zip_cons_cons, List.find?_cons]
      by_cases h : x = tok
      · simp [h]
      · simp only [h, decide_false]
        rw [← ih]
        cases a.findIdx? (fun x => decide (x = tok)) <;> simp

end SrcBuf

end Hila
