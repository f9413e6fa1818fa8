import Verif.Model.StringOps
import Verif.Model.StringSpec
import Mathlib.Data.List.Basic
import Mathlib.Data.List.TakeWhile
import Mathlib.Tactic.Common

/-!
# Lemmas on the string helpers of hilapp
-/

namespace Hila

namespace StrOps

open SrcBuf

/-- The pattern stands at position `i`. -/
def OccursAt (s pat : List Char) (i : ℕ) : Prop := i ≤ s.length ∧ pat <+: s.drop i

theorem find_spec (s pat : List Char) (pos i : ℕ) :
    find s pat pos = some i ↔ OccursAt s pat i ∧ pos ≤ i ∧ ∀ j, pos ≤ j → j < i → ¬ OccursAt s pat j := by
  unfold find OccursAt
  rw [List.find?_range'_eq_some]
  simp only [List.isPrefixOf_iff_prefix, List.mem_range'_1, Bool.not_eq_eq_eq_not, Bool.not_true]
  constructor
  · rintro ⟨h1, ⟨h2, h3⟩, h4⟩
    refine ⟨⟨by omega, h1⟩, h2, fun j hj hji hc => ?_⟩
    have := h4 j hj hji
    rw [← Bool.not_eq_true, List.isPrefixOf_iff_prefix] at this
    exact this hc.2
  · rintro ⟨⟨h1, h2⟩, h3, h4⟩
    refine ⟨h2, ⟨h3, by omega⟩, fun j hj hji => ?_⟩
    rw [← Bool.not_eq_true, List.isPrefixOf_iff_prefix]
    exact fun hc => h4 j hj hji ⟨by omega, hc⟩

theorem find_none (s pat : List Char) (pos : ℕ) : find s pat pos = none ↔ ∀ j, pos ≤ j → ¬ OccursAt s pat j := by
  unfold find OccursAt
  rw [List.find?_eq_none]
  simp only [List.isPrefixOf_iff_prefix, List.mem_range'_1]
  constructor
  · intro h j hj hc; exact h j ⟨hj, by omega⟩ hc.2
  · rintro h j ⟨h1, h2⟩ hc; exact h j h1 ⟨by omega, hc⟩

theorem noSpace_skip (l : List Char) : noSpace (skipSpace l) = noSpace l := by
  unfold noSpace skipSpace
  induction l with
  | nil => rfl
  | cons c r ih =>
    by_cases h : isSpace c = true
    · rw [List.dropWhile_cons_of_pos h, ih]; simp [h]
    · rw [List.dropWhile_cons_of_neg h]

theorem skip_head (l : List Char) (c : Char) (r : List Char) (h : skipSpace l = c :: r) : isSpace c = false := by
  have := List.head?_dropWhile_not isSpace l
  unfold skipSpace at h
  rw [h] at this
  simpa using this

theorem skip_nil_iff (l : List Char) : skipSpace l = [] ↔ noSpace l = [] := by
  unfold skipSpace noSpace
  rw [List.dropWhile_eq_nil_iff, List.filter_eq_nil_iff]
  simp

theorem skip_suffix (l : List Char) : skipSpace l <:+ l := List.dropWhile_suffix _

theorem skipCommon_spec : ∀ p q : List Char, ∃ m, p = m ++ (skipCommon p q).1 ∧ q = m ++ (skipCommon p q).2 ∧
    (∀ c p' d q', p = c :: p' → q = d :: q' → c = d → 0 < m.length)
  | [], q => ⟨[], by simp [skipCommon], by simp [skipCommon], by simp⟩
  | x :: p, [] => ⟨[], by simp [skipCommon], by simp [skipCommon], by simp⟩
  | x :: p, y :: q => by
    by_cases h : x = y
    · obtain ⟨m, h1, h2, _⟩ := skipCommon_spec p q
      subst h
      refine ⟨x :: m, ?_, ?_, by simp⟩
      · rw [skipCommon, if_pos rfl, List.cons_append, ← h1]
      · rw [skipCommon, if_pos rfl, List.cons_append, ← h2]
    · refine ⟨[], by simp [skipCommon, h], by simp [skipCommon, h], ?_⟩
      rintro c p' d q' h1 h2 h3
      simp only [List.cons.injEq] at h1 h2
      exact absurd (h1.1.trans (h3.trans h2.1.symm)) h

theorem wordListLoop_spec : ∀ (fuel : ℕ) (p q : List Char), p.length < fuel → ∃ m, noSpace p = m ++ noSpace (wordListLoop fuel p q).1 ∧
    noSpace q = m ++ noSpace (wordListLoop fuel p q).2 ∧ (wordListLoop fuel p q).1 <:+ p ∧
    (noSpace (wordListLoop fuel p q).2 ≠ [] → ¬ noSpace (wordListLoop fuel p q).2 <+: noSpace (wordListLoop fuel p q).1)
  | 0, p, q, h => by omega
  | fuel + 1, p, q, hf => by
    rw [wordListLoop]
    by_cases h : p ≠ [] ∧ q ≠ []
    · rw [if_pos h]
      dsimp only
      by_cases hd : (skipSpace p).head? ≠ (skipSpace q).head?
      · rw [if_pos hd]
        refine ⟨[], by simp [noSpace_skip], by simp [noSpace_skip], skip_suffix p, ?_⟩
        intro h1 h2
        dsimp only at h1 h2
        rw [Ne, noSpace_skip, ← skip_nil_iff] at h1
        obtain ⟨c, r, hc⟩ := List.exists_cons_of_ne_nil h1
        have hcs := skip_head _ _ _ hc
        rw [hc] at h2 hd
        cases hp : skipSpace p with
        | nil => rw [hp] at h2; simp [noSpace, hcs] at h2
        | cons x r' =>
          have hxs := skip_head _ _ _ hp
          rw [hp] at h2 hd
          simp only [noSpace, List.filter_cons, hcs, hxs, Bool.not_false, if_true, List.cons_prefix_cons] at h2
          apply hd; rw [List.head?_cons, List.head?_cons, h2.1]
      · rw [if_neg hd]
        rw [not_not] at hd
        obtain ⟨m, h1, h2, h3⟩ := skipCommon_spec (skipSpace p) (skipSpace q)
        have hlen : (skipCommon (skipSpace p) (skipSpace q)).1.length < fuel := by
          have hs := (skip_suffix p).length_le
          have hl := congrArg List.length h1
          rw [List.length_append] at hl
          cases hp : skipSpace p with
          | nil =>
            have : 0 < p.length := List.length_pos_iff.mpr h.1
            rw [hp] at hl; simp only [List.length_nil] at hl
            omega
          | cons x r =>
            cases hq : skipSpace q with
            | nil => rw [hp, hq] at hd; simp at hd
            | cons y t =>
              have hxy : x = y := by rw [hp, hq] at hd; simpa using hd
              have := h3 x r y t hp hq hxy
              rw [hp, hq] at hl; rw [hp] at hs
              omega
        obtain ⟨m', g1, g2, g3, g4⟩ := wordListLoop_spec fuel _ (skipCommon (skipSpace p) (skipSpace q)).2 hlen
        refine ⟨noSpace m ++ m', ?_, ?_, ?_, g4⟩
        · rw [← noSpace_skip p]
          conv_lhs => rw [h1]
          rw [noSpace, List.filter_append]
          change noSpace m ++ noSpace _ = _
          rw [g1, List.append_assoc]
        · rw [← noSpace_skip q]
          conv_lhs => rw [h2]
          rw [noSpace, List.filter_append]
          change noSpace m ++ noSpace _ = _
          rw [g2, List.append_assoc]
        · have : (skipCommon (skipSpace p) (skipSpace q)).1 <:+ skipSpace p := ⟨m, h1.symm⟩
          exact g3.trans (this.trans (skip_suffix p))
    · rw [if_neg h]
      refine ⟨[], rfl, rfl, List.suffix_rfl, ?_⟩
      intro h1 h2
      dsimp only at h1 h2
      have hq : q ≠ [] := by rintro rfl; exact h1 rfl
      have hp : p = [] := by by_contra hc; exact h ⟨hc, hq⟩
      subst hp
      exact h1 (List.prefix_nil.mp h2)

theorem wordsFrom_ne (cur l : List Char) (h : cur ≠ []) : wordsFrom cur l ≠ [] := by
  induction l generalizing cur with
  | nil => simp [wordsFrom, h]
  | cons c r ih =>
    rw [wordsFrom]
    split
    · simp [h]
    · exact ih _ (by simp)

theorem joinWords_cons (w : List Char) (r : List (List Char)) : joinWords (w :: r) = if r = [] then w else w ++ ' ' :: joinWords r := by
  cases r <;> simp [joinWords]

/-- The fold of `removeExtra`. -/
def squeeze (st : List Char × Bool) (l : List Char) : List Char × Bool := l.foldl (fun (st : List Char × Bool) c =>
    if isSpace c = false then (st.1 ++ [c], false) else (if st.2 = false then st.1 ++ [' '] else st.1, true)) st

def trimLast (l : List Char) : List Char := if l.getLast? = some ' ' then l.dropLast else l

theorem squeeze_spec : ∀ (l base cur : List Char), (∀ c ∈ cur, isSpace c = false) → (base = [] ∨ base.getLast? = some ' ') →
    trimLast (squeeze (base ++ cur, decide (cur = [])) l).1 =
      if wordsFrom cur l = [] then trimLast base else base ++ joinWords (wordsFrom cur l)
  | [], base, cur, hc, hb => by
    by_cases h : cur = []
    · subst h; simp [squeeze, wordsFrom]
    · simp only [squeeze, List.foldl_nil, wordsFrom, if_neg h, joinWords]
      rw [if_neg (by simp)]
      obtain ⟨r, c, rfl⟩ := List.eq_nil_or_concat cur |>.resolve_left h
      have : isSpace c = false := hc c (by simp)
      unfold trimLast
      rw [List.concat_eq_append, ← List.append_assoc, List.getLast?_concat, if_neg]
      rintro h1
      obtain rfl := Option.some.inj h1
      exact absurd this (by decide)
  | c :: l, base, cur, hc, hb => by
    by_cases hs : isSpace c = true
    · by_cases h : cur = []
      · subst h
        have := squeeze_spec l base [] (by simp) hb
        simp only [squeeze, List.foldl_cons, hs, wordsFrom] at this ⊢
        simpa using this
      · have := squeeze_spec l (base ++ cur ++ [' ']) [] (by simp) (Or.inr (by simp))
        simp only [squeeze, List.foldl_cons, hs, wordsFrom, if_neg h] at this ⊢
        rw [if_neg (by simp)]
        have e : decide (cur = []) = false := by simpa using h
        simp only [e, reduceCtorEq, if_true, if_false] at this ⊢
        simp only [List.append_nil, decide_true] at this
        rw [this, joinWords_cons]
        split
        · simp [trimLast]
        · simp
    · have hs' : isSpace c = false := by simpa using hs
      have := squeeze_spec l base (cur ++ [c]) (by intro x hx; rcases List.mem_append.mp hx with h | h; exacts [hc x h, by simp at h; rw [h]; exact hs']) hb
      have e : decide (cur ++ [c] = []) = false := by simp
      simp only [squeeze, List.foldl_cons, hs', wordsFrom, e] at this ⊢
      simpa using this

/-- Every newline followed by the comment sign. -/
def commentLines (comment : List Char) (l : List Char) : List Char := l.flatMap fun c => if c = '\n' then c :: comment else [c]

theorem find_newline (a b : List Char) : find (a ++ b) ['\n'] a.length = if '\n' ∈ b then some (a.length + (b.takeWhile (· ≠ '\n')).length) else none := by
  have hocc : ∀ j, OccursAt (a ++ b) ['\n'] j ↔ (a ++ b)[j]? = some '\n' := by
    intro j
    unfold OccursAt
    constructor
    · rintro ⟨_, t, ht⟩
      have := congrArg (fun l => l[0]?) ht
      simp only [List.getElem?_drop] at this
      simpa using this.symm
    · intro h
      obtain ⟨hj, h⟩ := List.getElem?_eq_some_iff.mp h
      refine ⟨by omega, (a ++ b).drop (j + 1), ?_⟩
      rw [List.drop_eq_getElem_cons hj, h]; rfl
  have hshift : ∀ k, (a ++ b)[a.length + k]? = b[k]? := by
    intro k; rw [List.getElem?_append_right (by omega)]; congr 1; omega
  split
  · rename_i hb
    rw [find_spec]
    have hsplit : b = b.takeWhile (· ≠ '\n') ++ b.dropWhile (· ≠ '\n') := (List.takeWhile_append_dropWhile).symm
    have hne : b.dropWhile (· ≠ '\n') ≠ [] := by
      rw [Ne, List.dropWhile_eq_nil_iff]; intro h; have := h _ hb; simp at this
    obtain ⟨x, r, hx⟩ := List.exists_cons_of_ne_nil hne
    have hxn : x = '\n' := by
      have := List.head?_dropWhile_not (fun c : Char => decide (c ≠ '\n')) b
      rw [hx] at this; simpa using this
    refine ⟨?_, by omega, ?_⟩
    · rw [hocc, hshift]
      have hg : (b.takeWhile (· ≠ '\n') ++ b.dropWhile (· ≠ '\n'))[(b.takeWhile (· ≠ '\n')).length]? = some '\n' := by
        rw [hx, List.getElem?_append_right (le_refl _), Nat.sub_self, hxn]; rfl
      rwa [← hsplit] at hg
    · intro j h1 h2 hc
      rw [hocc, show j = a.length + (j - a.length) by omega, hshift] at hc
      have hlt : j - a.length < (b.takeWhile (· ≠ '\n')).length := by omega
      have hc' : (b.takeWhile (· ≠ '\n'))[j - a.length]? = some '\n' := by
        rw [hsplit, List.getElem?_append_left hlt] at hc; exact hc
      have := List.mem_takeWhile_imp (List.mem_of_getElem? hc')
      simp at this
  · rename_i hb
    rw [find_none]
    intro j h1 hc
    rw [hocc, show j = a.length + (j - a.length) by omega, hshift] at hc
    exact hb (List.mem_of_getElem? hc)

theorem commentLines_plain (comment b : List Char) (h : '\n' ∉ b) : commentLines comment b = b := by
  unfold commentLines
  induction b with
  | nil => rfl
  | cons c r ih =>
    rw [List.mem_cons, not_or] at h
    rw [List.flatMap_cons, if_neg (Ne.symm h.1), ih h.2]; rfl

theorem commentLoop_spec (comment : List Char) (hcm : '\n' ∉ comment) : ∀ (fuel : ℕ) (a c b : List Char), '\n' ∉ c → b.length < fuel →
    commentLoop comment fuel (a ++ (c ++ b)) a.length = a ++ (c ++ commentLines comment b)
  | 0, a, c, b, _, h => by omega
  | fuel + 1, a, c, b, hc, hf => by
    rw [commentLoop]
    by_cases hcb : c ++ b = []
    · obtain ⟨rfl, rfl⟩ := List.append_eq_nil_iff.mp hcb
      simp [commentLines]
    · have hlt : a.length < (a ++ (c ++ b)).length := by
        rw [List.length_append]; have := List.length_pos_iff.mpr hcb; omega
      rw [if_pos hlt, find_newline]
      by_cases hb : '\n' ∈ b
      · obtain ⟨u, v, rfl, hu⟩ := List.append_of_mem hb |> fun _ => List.eq_append_cons_of_mem hb
        have hall : ∀ x ∈ c ++ u, decide (x ≠ '\n') = true := by
          intro x hx
          rcases List.mem_append.mp hx with h | h <;> simp only [decide_eq_true_eq] <;> rintro rfl <;> contradiction
        have htw : (c ++ (u ++ '\n' :: v)).takeWhile (· ≠ '\n') = c ++ u := by
          rw [← List.append_assoc, List.takeWhile_append_of_pos hall]; simp
        rw [if_pos (by simp), htw]
        dsimp only
        have e1 : (a ++ (c ++ (u ++ '\n' :: v))) = (a ++ (c ++ u) ++ ['\n']) ++ v := by simp
        have hl : a.length + (c ++ u).length + 1 = (a ++ (c ++ u) ++ ['\n']).length := by simp; omega
        rw [e1, hl, List.take_left, List.drop_left, List.append_assoc (a ++ (c ++ u) ++ ['\n'])]
        rw [commentLoop_spec comment hcm fuel _ comment v hcm (by simp at hf; omega)]
        have e2 : commentLines comment (u ++ '\n' :: v) = u ++ ('\n' :: (comment ++ commentLines comment v)) := by
          have := commentLines_plain comment u hu
          unfold commentLines at this ⊢
          rw [List.flatMap_append, this, List.flatMap_cons, if_pos rfl]; rfl
        rw [e2]; simp
      · rw [if_neg (by rw [List.mem_append, not_or]; exact ⟨hc, hb⟩), commentLines_plain comment b hb]

end StrOps

end Hila
