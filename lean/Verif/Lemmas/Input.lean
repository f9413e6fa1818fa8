import Verif.Model.Input

/-!
# Lemmas on the parameter-file reader
-/

namespace Hila

/-- All characters are white space. -/
def AllSp (l : Str) : Prop := ∀ c ∈ l, isSp c = true

/-- A word: not empty, no white space. -/
def IsWord (w : Str) : Prop := w ≠ [] ∧ ∀ c ∈ w, isSp c = false

theorem skipWs_append (s l : Str) (h : AllSp s) : skipWs (s ++ l) = skipWs l := by
  unfold skipWs
  rw [List.dropWhile_append_of_pos h]

theorem skipWs_of_not (l : Str) (h : headSp l = false) : skipWs l = l := by
  cases l with
  | nil => rfl
  | cons c r =>
    have : isSp c = false := by simpa [headSp] using h
    simp [skipWs, this]

theorem headSp_skipWs (l : Str) : headSp (skipWs l) = false := by
  induction l with
  | nil => rfl
  | cons c r ih =>
    by_cases h : isSp c = true
    · have : skipWs (c :: r) = skipWs r := by simp [skipWs, h]
      rw [this]; exact ih
    · simp [skipWs, h, headSp]

theorem skipWs_idem (l : Str) : skipWs (skipWs l) = skipWs l := skipWs_of_not _ (headSp_skipWs l)

theorem skipWs_allSp (s : Str) (h : AllSp s) : skipWs s = [] := by
  have := skipWs_append s [] h
  rw [List.append_nil] at this
  rw [this]; rfl

theorem allSp_of_skipWs (l : Str) (h : skipWs l = []) : AllSp l := by
  have h2 := List.takeWhile_append_dropWhile (p := isSp) (l := l)
  unfold skipWs at h
  rw [h, List.append_nil] at h2
  intro c hc
  rw [← h2] at hc
  exact List.all_eq_true.1 (List.all_takeWhile (p := isSp) (l := l)) c hc

theorem skipWs_split (l : Str) : ∃ s, AllSp s ∧ l = s ++ skipWs l := by
  refine ⟨l.takeWhile isSp, ?_, (List.takeWhile_append_dropWhile).symm⟩
  intro c hc
  have := List.all_takeWhile (p := isSp) (l := l)
  exact List.all_eq_true.1 this c hc

theorem headSp_word (w r : Str) (h : IsWord w) : headSp (w ++ r) = false := by
  obtain ⟨hne, hw⟩ := h
  cases w with
  | nil => exact absurd rfl hne
  | cons c w => simpa [headSp] using hw c List.mem_cons_self

theorem skipWs_length (l : Str) : (skipWs l).length ≤ l.length :=
  (List.dropWhile_sublist _).length_le

/-! ### The inner loop -/

theorem cwlInner_match (w : Str) (hw : ∀ c ∈ w, isSp c = false) (pr qr : Str)
    (hqr : qr = [] ∨ headSp qr = true) : ∀ ls lc,
    cwlInner (w ++ pr) (w ++ qr) ls lc =
      (pr, qr, if w = [] then ls else false, if w = [] then lc else w.getLast?) := by
  induction w with
  | nil =>
    intro ls lc
    rcases hqr with rfl | hqr
    · cases pr <;> simp [cwlInner]
    · cases qr with
      | nil => cases hqr
      | cons d q =>
        have hd : isSp d = true := by simpa [headSp] using hqr
        cases pr <;> simp [cwlInner, hd]
  | cons c w ih =>
    intro ls lc
    have hc := hw c List.mem_cons_self
    simp only [List.cons_append, cwlInner, hc, and_self, if_true]
    rw [ih fun x hx => hw x (List.mem_cons_of_mem _ hx)]
    cases w with
    | nil => simp
    | cons d w => simp [List.getLast?_cons]

/-- The inner loop on a line that does not begin with the word: it stops inside the word. -/
theorem cwlInner_mismatch (w : Str) (hw : ∀ c ∈ w, isSp c = false) (qr : Str) : ∀ (p : Str) ls lc,
    ¬ (∃ pr, p = w ++ pr) →
    let t := cwlInner p (w ++ qr) ls lc
    t.2.1 ≠ [] ∧ headSp t.2.1 = false ∧ t.1.head? ≠ t.2.1.head? := by
  induction w with
  | nil => intro p ls lc h; exact absurd ⟨p, rfl⟩ h
  | cons c w ih =>
    intro p ls lc h
    have hc := hw c List.mem_cons_self
    cases p with
    | nil => simp [cwlInner, headSp, hc]
    | cons d p =>
      by_cases hd : d = c
      · subst hd
        simp only [List.cons_append, cwlInner, hc, and_self, if_true]
        apply ih fun x hx => hw x (List.mem_cons_of_mem _ hx)
        rintro ⟨pr, rfl⟩
        exact h ⟨pr, rfl⟩
      · simp [cwlInner, hd, headSp, hc]

/-! ### The words of a key and of a line -/

/-- The words of a key: white space, a word, and what follows it (nothing or white space and more). -/
inductive Words : Str → List Str → Prop
  | nil (s : Str) : AllSp s → Words s []
  | cons (s w r : Str) (ws : List Str) : AllSp s → IsWord w → (r = [] ∨ headSp r = true) →
      Words r ws → Words (s ++ (w ++ r)) (w :: ws)

/-- The line begins with the words, separated by white space; `rest` follows the last word. -/
inductive Reads : List Str → Str → Str → Prop
  | last (s w rest : Str) : AllSp s → Reads [w] (s ++ (w ++ rest)) rest
  | cons (s w r : Str) (w' : Str) (ws : List Str) (rest : Str) : AllSp s → headSp r = true →
      Reads (w' :: ws) r rest → Reads (w :: w' :: ws) (s ++ (w ++ r)) rest

/-- What may follow the last word of a key: the end of the line, white space or a comma, or anything
if the key itself ends with a comma. -/
def KeyEnd (words : List Str) (rest : Str) : Prop :=
  rest = [] ∨ headSp rest = true ∨ rest.head? = some ',' ∨
    (words.getLast?.bind List.getLast?) = some ','

theorem reads_skipWs {ws : List Str} {p rest : Str} (h : Reads ws p rest) (hw : ∀ w ∈ ws, IsWord w) :
    Reads ws (skipWs p) rest := by
  cases h with
  | last s w rest hs =>
    rw [skipWs_append _ _ hs, skipWs_of_not _ (headSp_word _ _ (hw w List.mem_cons_self))]
    exact Reads.last [] w rest (by intro c hc; cases hc)
  | cons s w r w' ws rest hs hr h =>
    rw [skipWs_append _ _ hs, skipWs_of_not _ (headSp_word _ _ (hw w List.mem_cons_self))]
    exact Reads.cons [] w r w' ws rest (by intro c hc; cases hc) hr h

theorem reads_of_skipWs {ws : List Str} {p rest : Str} (h : Reads ws (skipWs p) rest) :
    Reads ws p rest := by
  obtain ⟨s0, hs0, he⟩ := skipWs_split p
  rw [he]
  generalize skipWs p = p' at h
  have hall : ∀ s, AllSp s → AllSp (s0 ++ s) := by
    intro s hs c hc
    rcases List.mem_append.1 hc with h | h
    · exact hs0 c h
    · exact hs c h
  cases h with
  | last s w rest hs =>
    rw [← List.append_assoc]
    exact Reads.last _ w rest (hall s hs)
  | cons s w r w' ws rest hs hr h =>
    rw [← List.append_assoc]
    exact Reads.cons _ w r w' ws rest (hall s hs) hr h

/-- A line without leading space that is read begins with the first word. -/
theorem reads_head {w : Str} {ws : List Str} {p rest : Str} (h : Reads (w :: ws) p rest)
    (hw : IsWord w) (hp : headSp p = false) :
    ∃ r, p = w ++ r ∧ (ws = [] → rest = r) ∧ (ws ≠ [] → headSp r = true ∧ Reads ws r rest) := by
  have key : ∀ s : Str, AllSp s → ∀ t : Str, headSp (s ++ t) = false → s = [] := by
    intro s hs t ht
    cases s with
    | nil => rfl
    | cons c s =>
      have := hs c List.mem_cons_self
      simp [headSp, this] at ht
  cases h with
  | last s w rest hs =>
    have := key s hs _ hp; subst this
    exact ⟨rest, rfl, fun _ => rfl, fun h => absurd rfl h⟩
  | cons s w r w' ws rest hs hr h =>
    have := key s hs _ hp; subst this
    exact ⟨r, rfl, fun h => by simp at h, fun _ => ⟨hr, h⟩⟩

/-! ### The whole function -/

/-- The test at the end of `contains_word_list`. -/
def cwlFinish (t : Str × Str × Bool × Option Char) : Option Str :=
  if skipWs t.2.1 ≠ [] ∨
      ¬ (t.2.2.1 ∨ t.1 = [] ∨ headSp t.1 ∨ t.2.2.2 = some ',' ∨ t.1.head? = some ',') then none
  else some (skipWs t.1)

theorem cwlFinish_none (t : Str × Str × Bool × Option Char) (h : skipWs t.2.1 ≠ []) :
    cwlFinish t = none := if_pos (.inl h)

theorem words_isWord {q : Str} {ws : List Str} (h : Words q ws) : ∀ w ∈ ws, IsWord w := by
  induction h with
  | nil => intro w hw; cases hw
  | cons s w r ws hs hw hr h ih =>
    intro v hv
    rcases List.mem_cons.1 hv with rfl | hv
    · exact hw
    · exact ih v hv

theorem words_skipWs {q : Str} {w : Str} {ws : List Str} (h : Words q (w :: ws)) :
    ∃ r, skipWs q = w ++ r ∧ (r = [] ∨ headSp r = true) ∧ Words r ws := by
  cases h with
  | cons s w r ws hs hw hr h =>
    refine ⟨r, ?_, hr, h⟩
    rw [skipWs_append _ _ hs, skipWs_of_not _ (headSp_word _ _ hw)]

theorem skipWs_ne_of_headSp {l : Str} (h : headSp l = false) (hne : l ≠ []) : skipWs l ≠ [] := by
  rw [skipWs_of_not l h]; exact hne

/-- The loop and the final test, from any word on. -/
theorem cwl_spec (ws : List Str) : ∀ (fuel : ℕ) (w : Str) (p qr : Str) (ls : Bool) (lc : Option Char)
    (out : Str), p.length < fuel → headSp p = false → IsWord w → (qr = [] ∨ headSp qr = true) →
    Words qr ws →
    (cwlFinish (cwlOuter fuel p (w ++ qr) ls lc) = some out ↔
      ∃ r, Reads (w :: ws) p r ∧ KeyEnd (w :: ws) r ∧ out = skipWs r) := by
  induction ws with
  | nil =>
    intro fuel w p qr ls lc out hfuel hp hw hqr hwords
    obtain ⟨fuel, rfl⟩ : ∃ f, fuel = f + 1 := ⟨fuel - 1, by omega⟩
    have hqs : AllSp qr := by cases hwords; assumption
    by_cases hm : ∃ pr, p = w ++ pr
    · obtain ⟨pr, rfl⟩ := hm
      have hright : (∃ r, Reads [w] (w ++ pr) r ∧ KeyEnd [w] r ∧ out = skipWs r) ↔
          KeyEnd [w] pr ∧ out = skipWs pr := by
        constructor
        · rintro ⟨r, h1, h2, h3⟩
          obtain ⟨r', h4, h5, _⟩ := reads_head h1 hw hp
          have := List.append_cancel_left h4
          rw [h5 rfl] at h2 h3
          rw [this]; exact ⟨h2, h3⟩
        · rintro ⟨h1, h2⟩
          exact ⟨pr, Reads.last [] w pr (by intro c hc; cases hc), h1, h2⟩
      rw [hright]
      have hne1 : w ++ pr ≠ [] := by
        intro h; exact hw.1 (List.append_eq_nil_iff.1 h).1
      have hne2 : w ++ qr ≠ [] := by
        intro h; exact hw.1 (List.append_eq_nil_iff.1 h).1
      unfold cwlOuter
      rw [if_neg (by simp [hw.1]), cwlInner_match w hw.2 pr qr hqr]
      simp only [hw.1, if_false]
      have hfin : ∀ (b : Bool) (q : Str), skipWs q = [] →
          (b = true → headSp pr = true ∨ pr = []) →
          (cwlFinish (pr, q, b, w.getLast?) = some out ↔ KeyEnd [w] pr ∧ out = skipWs pr) := by
        intro b q hq hb
        unfold cwlFinish KeyEnd
        simp only [hq, ne_eq, not_true_eq_false, false_or, List.getLast?_singleton,
          Option.bind_some]
        by_cases hk : (pr = [] ∨ headSp pr = true ∨ pr.head? = some ',' ∨ w.getLast? = some ',')
        · rw [if_neg]
          · simp only [Option.some.injEq, hk, true_and]
            exact ⟨fun h => h.symm, fun h => h.symm⟩
          · simp only [not_not]
            rcases hk with h | h | h | h <;> simp [h]
        · rw [if_pos]
          · constructor
            · intro h; cases h
            · rintro ⟨h, _⟩; exact absurd h hk
          · intro h
            apply hk
            rcases h with h | h | h | h | h
            · rcases hb h with h | h <;> simp [h]
            all_goals simp [h]
      by_cases hsk : headSp qr = true ∧ headSp pr = true
      · simp only [hsk, and_self, if_true]
        have hfin2 : cwlFinish (skipWs pr, skipWs qr, true, w.getLast?) = some out ↔
            KeyEnd [w] pr ∧ out = skipWs pr := by
          unfold cwlFinish
          rw [if_neg (by simp [skipWs_idem, skipWs_allSp qr hqs]; rfl)]
          simp only [Option.some.injEq, skipWs_idem]
          constructor
          · intro h; exact ⟨.inr (.inl hsk.2), h.symm⟩
          · rintro ⟨_, h⟩; exact h.symm
        split
        · exact hfin2
        · have hz : ∀ f a b d, cwlOuter f a (skipWs qr) b d = (a, skipWs qr, b, d) := by
            intro f a b d
            rw [skipWs_allSp qr hqs]
            cases f <;> simp [cwlOuter]
          rw [hz]
          exact hfin2
      · simp only [hsk, if_false]
        split
        · exact hfin false qr (skipWs_allSp qr hqs) (fun h => by cases h)
        · rename_i hhead
          have hq0 : qr = [] := by
            rcases hqr with h | h
            · exact h
            · exfalso
              have hpr : ¬ headSp pr = true := fun hh => hsk ⟨h, hh⟩
              rw [ne_eq, not_not] at hhead
              unfold headSp at h hpr
              rw [hhead] at hpr
              exact hpr h
          have hz : ∀ f a b d, cwlOuter f a qr b d = (a, qr, b, d) := by
            intro f a b d
            rw [hq0]
            cases f <;> simp [cwlOuter]
          rw [hz]
          exact hfin false qr (skipWs_allSp qr hqs) (fun h => by cases h)
    · have hl : cwlFinish (cwlOuter (fuel + 1) p (w ++ qr) ls lc) = none := by
        unfold cwlOuter
        by_cases hp0 : p = []
        · rw [if_pos (.inl hp0)]
          exact cwlFinish_none _ (skipWs_ne_of_headSp (headSp_word w qr hw) (by simp [hw.1]))
        · rw [if_neg (by simp [hp0, hw.1])]
          obtain ⟨h1, h2, h3⟩ := cwlInner_mismatch w hw.2 qr p ls lc hm
          generalize cwlInner p (w ++ qr) ls lc = t at h1 h2 h3
          have hn : ¬ (headSp t.2.1 = true ∧ headSp t.1 = true) := by rw [h2]; simp
          dsimp only
          rw [if_neg hn, if_pos h3]
          exact cwlFinish_none _ (skipWs_ne_of_headSp h2 h1)
      rw [hl]
      constructor
      · intro h; cases h
      · rintro ⟨r, h1, _⟩
        obtain ⟨r', h4, _⟩ := reads_head h1 hw hp
        exact absurd ⟨r', h4⟩ hm
  | cons w2 ws ih =>
    intro fuel w p qr ls lc out hfuel hp hw hqr hwords
    obtain ⟨fuel, rfl⟩ : ∃ f, fuel = f + 1 := ⟨fuel - 1, by omega⟩
    have hw2 : IsWord w2 := words_isWord hwords w2 List.mem_cons_self
    obtain ⟨q2, hq2, hq2r, hq2w⟩ := words_skipWs hwords
    have hqsp : headSp qr = true := by
      rcases hqr with rfl | h
      · exfalso
        have : w2 ++ q2 = [] := hq2.symm
        exact hw2.1 (List.append_eq_nil_iff.1 this).1
      · exact h
    have hq2ne : skipWs qr ≠ [] := by rw [hq2]; simp [hw2.1]
    by_cases hm : ∃ pr, p = w ++ pr
    · obtain ⟨pr, rfl⟩ := hm
      have hright : (∃ r, Reads (w :: w2 :: ws) (w ++ pr) r ∧ KeyEnd (w :: w2 :: ws) r ∧
          out = skipWs r) ↔ headSp pr = true ∧
            ∃ r, Reads (w2 :: ws) (skipWs pr) r ∧ KeyEnd (w2 :: ws) r ∧ out = skipWs r := by
        have hke : ∀ r, KeyEnd (w :: w2 :: ws) r ↔ KeyEnd (w2 :: ws) r := by
          intro r; unfold KeyEnd; rw [List.getLast?_cons_cons]
        constructor
        · rintro ⟨r, h1, h2, h3⟩
          obtain ⟨r', h4, _, h6⟩ := reads_head h1 hw hp
          have := List.append_cancel_left h4
          obtain ⟨h7, h8⟩ := h6 (by simp)
          subst this
          exact ⟨h7, r, reads_skipWs h8 (words_isWord hwords), (hke r).1 h2, h3⟩
        · rintro ⟨h0, r, h1, h2, h3⟩
          exact ⟨r, Reads.cons [] w pr w2 ws r (by intro c hc; cases hc) h0 (reads_of_skipWs h1),
            (hke r).2 h2, h3⟩
      rw [hright]
      unfold cwlOuter
      rw [if_neg (by simp [hw.1]), cwlInner_match w hw.2 pr qr hqr]
      simp only [hw.1, if_false]
      by_cases hsk : headSp pr = true
      · simp only [hqsp, hsk, and_self, if_true, true_and]
        split
        · rename_i hhead
          rw [cwlFinish_none _ (by simpa [skipWs_idem] using hq2ne)]
          constructor
          · intro h; cases h
          · rintro ⟨r, h1, _⟩
            obtain ⟨r', h4, _⟩ := reads_head h1 hw2 (headSp_skipWs pr)
            exfalso; apply hhead
            rw [h4, hq2]
            obtain ⟨hne, _⟩ := hw2
            cases w2 with
            | nil => exact absurd rfl hne
            | cons c w2 => rfl
        · rw [hq2]
          refine ih fuel w2 (skipWs pr) q2 true w.getLast? out ?_ (headSp_skipWs pr) hw2 hq2r hq2w
          have h1 := skipWs_length pr
          have h2 : 0 < w.length := List.length_pos_iff.2 hw.1
          rw [List.length_append] at hfuel
          omega
      · simp only [hsk, and_false, if_false, false_and, iff_false, reduceCtorEq, Bool.false_eq_true]
        rw [if_pos]
        · rw [cwlFinish_none _ hq2ne]
          intro h; cases h
        · intro hhead
          unfold headSp at hqsp hsk
          rw [hhead] at hsk
          exact hsk hqsp
    · have hl : cwlFinish (cwlOuter (fuel + 1) p (w ++ qr) ls lc) = none := by
        unfold cwlOuter
        by_cases hp0 : p = []
        · rw [if_pos (.inl hp0)]
          exact cwlFinish_none _ (skipWs_ne_of_headSp (headSp_word w qr hw) (by simp [hw.1]))
        · rw [if_neg (by simp [hp0, hw.1])]
          obtain ⟨h1, h2, h3⟩ := cwlInner_mismatch w hw.2 qr p ls lc hm
          generalize cwlInner p (w ++ qr) ls lc = t at h1 h2 h3
          have hn : ¬ (headSp t.2.1 = true ∧ headSp t.1 = true) := by rw [h2]; simp
          dsimp only
          rw [if_neg hn, if_pos h3]
          exact cwlFinish_none _ (skipWs_ne_of_headSp h2 h1)
      rw [hl]
      constructor
      · intro h; cases h
      · rintro ⟨r, h1, _⟩
        obtain ⟨r', h4, _⟩ := reads_head h1 hw hp
        exact absurd ⟨r', h4⟩ hm

theorem containsWordList_iff {key : Str} {w : Str} {ws : List Str} (hkey : Words key (w :: ws))
    (line out : Str) : containsWordList key line = some out ↔
      ∃ r, Reads (w :: ws) line r ∧ KeyEnd (w :: ws) r ∧ out = skipWs r := by
  obtain ⟨qr, hq, hqr, hqw⟩ := words_skipWs hkey
  have hw := words_isWord hkey
  have h := cwl_spec ws (line.length + 1) w (skipWs line) qr false none out
    (by have := skipWs_length line; omega) (headSp_skipWs line) (hw w List.mem_cons_self) hqr hqw
  have he : containsWordList key line =
      cwlFinish (cwlOuter (line.length + 1) (skipWs line) (skipWs key) false none) := rfl
  rw [he, hq, h]
  constructor
  · rintro ⟨r, h1, h2⟩; exact ⟨r, reads_of_skipWs h1, h2⟩
  · rintro ⟨r, h1, h2⟩; exact ⟨r, reads_skipWs h1 hw, h2⟩

end Hila
