import Verif.Lemmas.StrType
import Mathlib.Data.List.Perm.Basic
import Mathlib.Data.List.Induction

/-!
# C72, C73: words in pragmas, types and names; the command line of hilapp
-/

namespace Hila

open StrOps SrcBuf

/-- **C72 (partial).** If the first occurrence at or after the starting point is a complete word, it is found. What is found is the first occurrence, does not continue
a word, and is a complete word unless exactly one character follows it. Missing: later complete words, see `C72_word_missed`, and that last character, see
`C72_word_false`. -/
theorem C72_find_word_partial (s pat : List Char) (pos : ℕ) :
    (∀ i, pos ≤ i → WholeWordAt s pat i → (∀ j, pos ≤ j → j < i → ¬ pat <+: s.drop j) → findWord s pat pos = some i) ∧
    (∀ i, findWord s pat pos = some i → pos ≤ i ∧ pat <+: s.drop i ∧ (∀ j, pos ≤ j → j < i → ¬ pat <+: s.drop j) ∧
      (WholeWordAt s pat i ∨ i + pat.length + 1 = s.length)) := by
  constructor
  · rintro i hi ⟨a, b, rfl, rfl, h1, h2⟩ hfirst
    have hfind : find (a ++ pat ++ b) pat pos = some a.length := by
      rw [find_spec]
      refine ⟨⟨by simp, ?_⟩, hi, fun j h3 h4 h5 => hfirst j h3 h4 h5.2⟩
      rw [List.append_assoc, List.drop_left]; exact List.prefix_append _ _
    unfold findWord
    rw [hfind]
    dsimp only
    rw [if_neg, if_neg]
    · rintro ⟨_, h⟩
      have : (a ++ pat ++ b).getD (a.length + pat.length) (Char.ofNat 0) = b.getD 0 (Char.ofNat 0) := by
        rw [List.getD_eq_getElem?_getD, List.getD_eq_getElem?_getD, List.getElem?_append_right (by simp)]
        congr 2; simp
      rw [this] at h
      cases b with
      | nil => rw [List.getD_nil, isWordChar_nul] at h; cases h
      | cons c r => rw [List.getD_cons_zero, h2 c rfl] at h; cases h
    · rintro ⟨h3, h⟩
      have hne : a ≠ [] := List.length_pos_iff.mp h3
      have : (a ++ pat ++ b).getD (a.length - 1) (Char.ofNat 0) = a.getLast hne := by
        rw [List.getD_eq_getElem?_getD, List.append_assoc, List.getElem?_append_left (by omega), List.getLast_eq_getElem, List.getElem?_eq_getElem (by omega)]; rfl
      rw [this, h1 _ (List.getLast?_eq_some_getLast hne)] at h
      cases h
  · intro i h
    unfold findWord at h
    cases hf : find s pat pos with
    | none => rw [hf] at h; cases h
    | some k =>
      rw [hf] at h
      dsimp only at h
      split at h
      · cases h
      · rename_i hb
        split at h
        · cases h
        · rename_i ha
          obtain rfl := Option.some.inj h
          rw [find_spec] at hf
          obtain ⟨⟨g1, g2⟩, g3, g4⟩ := hf
          refine ⟨g3, g2, fun j h1 h2 h3 => g4 j h1 h2 ⟨by omega, h3⟩, ?_⟩
          obtain ⟨b, hb'⟩ := g2
          have hs : s = s.take k ++ pat ++ b := by rw [List.append_assoc, hb', List.take_append_drop]
          have hlen : s.length = k + pat.length + b.length := by
            conv_lhs => rw [hs]
            rw [List.length_append, List.length_append, List.length_take, Nat.min_eq_left g1]
          by_cases hone : b.length = 1
          · right; omega
          · left
            refine ⟨s.take k, b, hs, by rw [List.length_take, Nat.min_eq_left g1], ?_, ?_⟩
            · intro c hc
              by_contra hw
              have hk : 0 < k := by
                rcases Nat.eq_zero_or_pos k with h0 | h0
                · rw [h0] at hc; simp at hc
                · exact h0
              apply hb
              refine ⟨hk, ?_⟩
              rw [List.getLast?_eq_getElem?, List.length_take, Nat.min_eq_left g1, List.getElem?_take_of_lt (by omega)] at hc
              rw [List.getD_eq_getElem?_getD, hc]
              simpa using hw
            · intro c hc
              by_contra hw
              apply ha
              have hb0 : 0 < b.length := by cases b with
                | nil => simp at hc
                | cons x r => simp
              refine ⟨fun _ => by omega, ?_⟩
              have : s.getD (k + pat.length) (Char.ofNat 0) = c := by
                rw [hs, List.getD_eq_getElem?_getD, List.getElem?_append_right (by rw [List.length_append, List.length_take]; omega)]
                rw [List.length_append, List.length_take, Nat.min_eq_left g1, Nat.sub_self, ← List.head?_eq_getElem?, hc]; rfl
              rw [this]
              simpa using hw

example : WholeWordAt "a, f, g".toList "f".toList 3 := ⟨"a, ".toList, ", g".toList, by decide, by decide, by decide, by decide⟩
example : findWord "a, f, g".toList "f".toList 0 = some 3 := by decide +kernel

/-- **C72 fails: a complete word is missed** if the name occurs earlier inside a longer word: of the variables in `direct_access(fa, f)`, `f` is not found. -/
theorem C72_word_missed : ∃ s pat i, WholeWordAt s pat i ∧ findWord s pat 0 = none :=
  ⟨"fa, f".toList, "f".toList, 4, ⟨"fa, ".toList, [], by decide, by decide, by decide, by decide⟩, by decide +kernel⟩

/-- **C72 fails: a part of a word is taken as a word** if one character follows: `int` is found in `int4`. -/
theorem C72_word_false : ∃ s pat i, findWord s pat 0 = some i ∧ ∀ j, ¬ WholeWordAt s pat j := by
  refine ⟨"int4".toList, "int".toList, 0, by decide +kernel, ?_⟩
  rintro j ⟨a, b, h1, h2, h3, h4⟩
  have hl := congrArg List.length h1
  simp only [List.length_append] at hl
  have e1 : "int4".toList.length = 4 := by decide
  have e2 : "int".toList.length = 3 := by decide
  rw [e1, e2] at hl
  cases a with
  | nil =>
    have : b = ['4'] := by
      have : "int4".toList = "int".toList ++ ['4'] := by decide
      rw [this, List.nil_append] at h1
      exact (List.append_cancel_left h1).symm
    rw [this] at h4
    exact absurd (h4 '4' rfl) (by decide)
  | cons x a =>
    have ha : a = [] := by apply List.eq_nil_of_length_eq_zero; simp at hl; omega
    have hb : b = [] := by apply List.eq_nil_of_length_eq_zero; simp at hl; omega
    subst ha hb
    have := congrArg (fun l => l.getD 1 ' ') h1
    exact absurd this (show ¬ ('n' = 'i') by decide)

/-- **C72 (partial).** If in the name of a type the number type `old` occurs only as a complete word (`x₀ old x₁ old … xₙ`, no other occurrence, and word characters
never touch it), each occurrence is replaced by the vector type and nothing else changes; without an occurrence the type is not vectorisable. Missing: types where
the name also occurs inside other words, see `C72_type_wrong`; `old` of two words (`unsigned long`). -/
theorem C72_type_partial (old new x₀ : List Char) (xs : List (List Char)) (hne : old ≠ []) (hw : ∀ c ∈ old, isWordChar c = true) (hn : ¬ old <:+: new)
    (h0 : ¬ old <:+: x₀) (h1 : xs ≠ [] → ∀ c, x₀.getLast? = some c → isWordChar c = false) (hx : ∀ x ∈ xs, ¬ old <:+: x ∧ ∀ c, x.head? = some c → isWordChar c = false)
    (hx' : ∀ x ∈ xs.dropLast, x ≠ [] ∧ ∀ c, x.getLast? = some c → isWordChar c = false) :
    vectorizedType (x₀ ++ xs.flatMap (old ++ ·)) old new = if xs = [] then none else some (x₀ ++ xs.flatMap (new ++ ·)) := by
  have hbet : ∀ ys : List (List Char), (∀ x ∈ ys, ¬ old <:+: x ∧ ∀ c, x.head? = some c → isWordChar c = false) →
      (∀ x ∈ ys.dropLast, x ≠ [] ∧ ∀ c, x.getLast? = some c → isWordChar c = false) → Between old ys := by
    intro ys
    induction ys with
    | nil => intros; trivial
    | cons x r ih =>
      cases r with
      | nil => intro g1 _; exact ⟨(g1 x (by simp)).2, (g1 x (by simp)).1⟩
      | cons y r =>
        intro g1 g2
        refine ⟨(g2 x (by simp)).1, (g1 x (by simp)).2, (g2 x (by simp)).2, (g1 x (by simp)).1, ih (fun z hz => g1 z (by simp [hz])) ?_⟩
        intro z hz
        exact g2 z (by rw [List.dropLast_cons_of_ne_nil (by simp)]; exact List.mem_cons_of_mem _ hz)
  have hb := hbet xs hx hx'
  unfold vectorizedType
  by_cases h : xs = []
  · subst h
    have := findWord_absent [] x₀ old h0
    simp only [List.nil_append, List.length_nil] at this
    rw [List.flatMap_nil, List.append_nil, this]; rfl
  · rw [if_neg h]
    have hfound : ∃ i, findWord (x₀ ++ xs.flatMap (old ++ ·)) old 0 = some i := by
      obtain ⟨x, r, rfl⟩ := List.exists_cons_of_ne_nil h
      have hbt : BeginsOff (x ++ r.flatMap (old ++ ·)) := by
        cases x with
        | nil =>
          cases r with
          | nil => intro c hc; simp at hc
          | cons z r => exact absurd rfl (hx' [] (by simp)).1
        | cons c x => exact fun d hd => (hx (c :: x) (by simp)).2 d hd
      have := findWord_first [] x₀ old (x ++ r.flatMap (old ++ ·)) hw h0 (h1 (by simp)) (Or.inl rfl) hbt
      simp only [List.nil_append, List.length_nil] at this
      exact ⟨_, by rw [List.flatMap_cons, List.append_assoc old x]; exact this⟩
    obtain ⟨i, hi⟩ := hfound
    rw [hi]
    dsimp only
    congr 1
    have hlen : xs.length < (x₀ ++ xs.flatMap (old ++ ·)).length + 1 := by
      have : ∀ ys : List (List Char), ys.length ≤ (ys.flatMap (old ++ ·)).length := by
        intro ys
        induction ys with
        | nil => simp
        | cons y ys ih =>
          rw [List.flatMap_cons, List.length_append, List.length_append, List.length_cons]
          have := List.length_pos_iff.mpr hne
          omega
      have := this xs
      rw [List.length_append]; omega
    have := vectorizeLoop_spec old new hne hw hn xs _ [] x₀ hlen hb h0 (fun hxs => ⟨h1 hxs, Or.inl rfl⟩)
    simpa using this

example : vectorizedType "Matrix<2,2,Complex<double>>".toList "double".toList "Vec4d".toList = some "Matrix<2,2,Complex<Vec4d>>".toList := by decide +kernel

/-- **C72 fails for types with longer words.** The number type after a longer word is not replaced; a word one character longer is replaced. -/
theorem C72_type_wrong : vectorizedType "P<double,double_t,double>".toList "double".toList "Vec4d".toList = some "P<Vec4d,double_t,double>".toList ∧
    vectorizedType "double2".toList "double".toList "Vec4d".toList = some "Vec4d2".toList := by
  refine ⟨by decide +kernel, by decide +kernel⟩

/-- **C72 (partial).** A pragma line contains a list of words iff the list without white space is the beginning of the line without white space; the remainder is then
the rest of the line, from its first character that is not white space. Missing: the ends of the words, see `C72_pragma_wrong`. -/
theorem C72_pragma_partial (line list : List Char) :
    ((containsWordList line list).isSome ↔ noSpace list <+: noSpace line) ∧
    ∀ r, containsWordList line list = some r → r <:+ line ∧ noSpace line = noSpace list ++ noSpace r ∧ ∀ c, r.head? = some c → isSpace c = false := by
  obtain ⟨m, h1, h2, h3, h4⟩ := wordListLoop_spec (line.length + 1) line list (by omega)
  unfold containsWordList
  dsimp only
  by_cases h : skipSpace (wordListLoop (line.length + 1) line list).2 = []
  · rw [if_neg (by rw [not_not]; exact h)]
    have hn : noSpace (wordListLoop (line.length + 1) line list).2 = [] := (skip_nil_iff _).mp h
    rw [hn, List.append_nil] at h2
    refine ⟨⟨fun _ => by rw [h1, h2]; exact List.prefix_append _ _, fun _ => rfl⟩, ?_⟩
    intro r hr
    obtain rfl := Option.some.inj hr
    refine ⟨(skip_suffix _).trans h3, by rw [noSpace_skip, h1, h2], ?_⟩
    intro c hc
    cases hs : skipSpace (wordListLoop (line.length + 1) line list).1 with
    | nil => rw [hs] at hc; simp at hc
    | cons x t =>
      rw [hs] at hc
      obtain rfl := Option.some.inj hc
      exact skip_head _ _ _ hs
  · rw [if_pos h]
    refine ⟨⟨fun hc => by simp at hc, fun hc => ?_⟩, by intro r hr; cases hr⟩
    rw [h1, h2] at hc
    exact absurd ((List.prefix_append_right_inj m).mp hc) (h4 (fun hc => h ((skip_nil_iff _).mpr hc)))

example : containsWordList "hila  direct_access (f)".toList "hila direct_access".toList = some "(f)".toList := by decide +kernel

/-- **C72 fails for the ends of words.** A longer word counts as the word, and words may be split differently. -/
theorem C72_pragma_wrong : containsWordList "hila skipping".toList "hila skip".toList = some "ping".toList ∧
    containsWordList "no vector".toList "novector".toList = some [] := by
  refine ⟨by decide +kernel, by decide +kernel⟩

/-- **C72.** The text without extra white space is the sequence of its words, joined by one space. -/
theorem C72_whitespace (line : List Char) : removeExtra line = joinWords (wordsFrom [] line) := by
  have := squeeze_spec line [] [] (by simp) (Or.inl rfl)
  unfold removeExtra
  change trimLast (squeeze ([], true) line).1 = _
  simp only [List.append_nil, decide_true, List.nil_append] at this
  rw [this]
  split
  · rename_i h; rw [h]; rfl
  · rfl

example : removeExtra "  a \n\t bc  d ".toList = "a bc d".toList := by decide +kernel

/-- **C72.** In a commented text every line begins with the comment sign: the result is the sign followed by the text, with the sign inserted after each newline. -/
theorem C72_comment (s : List Char) : commentString s = "//--  ".toList ++ s.flatMap fun c => if c = '\n' then c :: "//--  ".toList else [c] := by
  have := commentLoop_spec "//--  ".toList (by decide) (s.length + 1) [] "//--  ".toList s (by decide) (by omega)
  simp only [List.nil_append, List.length_nil] at this
  exact this

example : commentString "a\nb".toList = "//--  a\n//--  b".toList := by decide +kernel

/-- **C72.** A cleaned name has only characters of words, one for each character, and names that are words stay the same. -/
theorem C72_clean_name (s : List Char) : (∀ c ∈ cleanName s, isWordChar c = true) ∧ (cleanName s).length = s.length ∧
    ((∀ c ∈ s, isWordChar c = true) → cleanName s = s) := by
  unfold cleanName
  refine ⟨?_, by simp, ?_⟩
  · intro c hc
    obtain ⟨d, _, rfl⟩ := List.mem_map.mp hc
    split
    · assumption
    · repeat' split
      all_goals decide
  · intro h
    conv_rhs => rw [← List.map_id s]
    apply List.map_congr_left
    intro c hc
    rw [if_pos (h c hc)]; rfl

/-- **C72 fails for different names.** Two different field expressions in one loop can get the same name in the generated code. -/
theorem C72_clean_name_wrong : cleanName "f[0]".toList = cleanName "f_0_".toList ∧ "f[0]".toList ≠ "f_0_".toList := by decide +kernel

/-- **C73.** The command line: `--` is added at the end if there is none; the options `-D`/`-I` (with their value, joined or separate) before the last `--` go behind all
other arguments in their order, all other arguments keep their order; then come the last given C++ standard (default C++17) and `-DHILAPP`. A standard that is not
known ends the program. -/
theorem C73_args (pre post : List (List Char)) (hp : ['-', '-'] ∉ post) (argv : List (List Char))
    (h : argv = pre ++ ['-', '-'] :: post ∨ (argv = pre ∧ post = [] ∧ ['-', '-'] ∉ pre)) :
    ((∀ a ∈ argv, a.take 4 = "-std".toList → a ∈ ["-std=c++17".toList, "-std=c++20".toList, "-std=c++23".toList, "-std=c++26".toList]) →
      ∃ std, cmdlineArgs argv = some ((splitArgs pre).1 ++ ['-', '-'] :: (post ++ (splitArgs pre).2 ++ [std, "-DHILAPP".toList])) ∧
        ((std = "-std=c++17".toList ∧ ∀ a ∈ argv, a.take 4 ≠ "-std".toList) ∨
          ∃ u v, argv = u ++ std :: v ∧ std.take 4 = "-std".toList ∧ ∀ a ∈ v, a.take 4 ≠ "-std".toList)) ∧
    ((∃ a ∈ argv, a.take 4 = "-std".toList ∧ a ∉ ["-std=c++17".toList, "-std=c++20".toList, "-std=c++23".toList, "-std=c++26".toList]) → cmdlineArgs argv = none) := by
  constructor
  · intro hstd
    refine ⟨((argv.filter fun a => decide (a.take 4 = "-std".toList)).getLast?).getD "-std=c++17".toList, ?_, ?_⟩
    · unfold cmdlineArgs
      dsimp only
      rw [if_neg]
      · have hm := moveLoop_spec
        rcases h with rfl | ⟨rfl, rfl, hnd⟩
        · rw [lastDash_split pre post hp]
          dsimp only
          have := hm (2 * (pre ++ ['-', '-'] :: post).length + 1) [] pre (['-', '-'] :: post) (by simp; omega)
          simp only [List.length_nil, Nat.zero_add, List.nil_append] at this
          rw [this]; simp
        · rw [lastDash_none _ hnd]
          dsimp only
          have := hm (2 * (argv ++ [['-', '-']]).length + 1) [] argv [['-', '-']] (by simp; omega)
          simp only [List.length_nil, Nat.zero_add, List.nil_append] at this
          rw [this]; simp
      · rw [List.any_eq_true]
        rintro ⟨a, ha, hd⟩
        rw [decide_eq_true_eq] at hd
        exact hd.2.2 (hstd a ha hd.2.1)
    · rcases List.eq_nil_or_concat (argv.filter fun a : List Char => decide (a.take 4 = "-std".toList)) with hf | ⟨u, x, hf⟩
      · left
        rw [hf]
        refine ⟨rfl, fun a ha hc => ?_⟩
        rw [List.filter_eq_nil_iff] at hf
        exact hf a ha (by simpa using hc)
      · right
        rw [hf, List.concat_eq_append, List.getLast?_concat, Option.getD_some]
        clear h hstd
        induction argv using List.reverseRecOn generalizing u with
        | nil => simp at hf
        | append_singleton l y ih =>
          rw [List.filter_append, List.concat_eq_append] at hf
          by_cases hy : y.take 4 = "-std".toList
          · rw [List.filter_cons_of_pos (by simpa using hy), List.filter_nil] at hf
            obtain ⟨_, h2⟩ := List.append_inj' hf rfl
            have : y = x := by simpa using h2
            subst this
            exact ⟨l, [], rfl, hy, by simp⟩
          · rw [List.filter_cons_of_neg (by simpa using hy), List.filter_nil, List.append_nil] at hf
            obtain ⟨u', v, h1, h2, h3⟩ := ih u (by rw [hf, List.concat_eq_append])
            refine ⟨u', v ++ [y], by rw [h1]; simp, h2, ?_⟩
            intro a ha
            rcases List.mem_append.mp ha with ha | ha
            · exact h3 a ha
            · rw [List.mem_singleton.mp ha]; exact hy
  · rintro ⟨a, ha, h1, h2⟩
    unfold cmdlineArgs
    dsimp only
    rw [if_pos]
    rw [List.any_eq_true]
    refine ⟨a, ha, ?_⟩
    rw [decide_eq_true_eq]
    refine ⟨?_, h1, h2⟩
    rintro rfl
    exact absurd h1 (by decide)

/-- **C73.** No argument is lost or invented, and only options are moved. -/
theorem C73_nothing_lost : ∀ pre : List (List Char), ((splitArgs pre).1 ++ (splitArgs pre).2).Perm pre ∧
    (splitArgs pre).1.Sublist pre ∧ (splitArgs pre).2.Sublist pre ∧
    (∀ a ∈ (splitArgs pre).1, a.take 2 ≠ ['-', 'D'] ∧ a.take 2 ≠ ['-', 'I'])
  | [] => by simp [splitArgs]
  | [a] => by
    rw [splitArgs]
    split
    · simp
    · rename_i h; rw [not_or] at h; simpa using h
  | a :: b :: r => by
    rw [splitArgs]
    split
    · obtain ⟨h1, h2, h3, h4⟩ := C73_nothing_lost r
      refine ⟨?_, ((h2.cons b).cons a), (h3.cons_cons b).cons_cons a, h4⟩
      exact (List.perm_middle.trans (List.Perm.cons a (List.perm_middle.trans (List.Perm.cons b h1))))
    · split
      · obtain ⟨h1, h2, h3, h4⟩ := C73_nothing_lost (b :: r)
        exact ⟨List.perm_middle.trans (List.Perm.cons a h1), h2.cons a, h3.cons_cons a, h4⟩
      · rename_i h
        rw [not_or] at h
        obtain ⟨h1, h2, h3, h4⟩ := C73_nothing_lost (b :: r)
        refine ⟨List.Perm.cons a h1, h2.cons_cons a, h3.cons a, ?_⟩
        intro x hx
        rcases List.mem_cons.mp hx with rfl | hx
        · exact h
        · exact h4 x hx

example : cmdlineArgs ["hilapp".toList, "-I".toList, "inc".toList, "a.cpp".toList, "-DX=1".toList, "--".toList, "-O2".toList] =
    some ["hilapp".toList, "a.cpp".toList, "--".toList, "-O2".toList, "-I".toList, "inc".toList, "-DX=1".toList, "-std=c++17".toList, "-DHILAPP".toList] := by
  decide +kernel
example : cmdlineArgs ["hilapp".toList, "-std=c++11".toList] = none := by decide +kernel

end Hila
