import Verif.Model.SrcScan
import Mathlib.Tactic.Ring

/-!
# C104: hilapp finds the end of a parameter list and the word after it
-/

namespace Hila

/-! ## The specification: which texts may stand between parentheses -/

/-- The text does not start with a comment. -/
def NoComment (s : List Char) : Prop := ∀ t, s ≠ '/' :: '/' :: t ∧ s ≠ '/' :: '*' :: t

/-- The inside of a string literal: no quotation marks, except after a backslash. -/
inductive StrBody : List Char → Prop
  | nil : StrBody []
  | plain (c : Char) (s : List Char) : c ≠ '"' → c ≠ '\\' → StrBody s → StrBody (c :: s)
  | esc (c : Char) (s : List Char) : StrBody s → StrBody ('\\' :: c :: s)

/-- Texts that may stand between the parenthesis `pt` (`(`, `<` or `[`) and the one that closes it: characters,
quotients, string and character literals, comments, and balanced groups in parentheses of the same kind or
in round ones. -/
inductive ParText : Char → List Char → Prop
  | nil (pt : Char) : ParText pt []
  | plain (pt c : Char) (s : List Char) : c ≠ pt → c ≠ closePar pt → c ≠ '(' → c ≠ '"' → c ≠ '\'' → c ≠ '/' →
      ParText pt s → ParText pt (c :: s)
  | quotient (pt : Char) (s : List Char) : s.head? ≠ some '/' → s.head? ≠ some '*' → ParText pt s →
      ParText pt ('/' :: s)
  | string (pt : Char) (b s : List Char) : StrBody b → NoComment b → NoComment s → ParText pt s →
      ParText pt ('"' :: b ++ '"' :: s)
  | char (pt c : Char) (s : List Char) : c ≠ '\\' → NoComment s → ParText pt s →
      ParText pt ('\'' :: c :: '\'' :: s)
  | charEsc (pt c : Char) (s : List Char) : NoComment s → ParText pt s →
      ParText pt ('\'' :: '\\' :: c :: '\'' :: s)
  | line (pt : Char) (b s : List Char) : (∀ c ∈ b, c ≠ '\n') → ParText pt s →
      ParText pt ('/' :: '/' :: b ++ '\n' :: s)
  | block (pt : Char) (b s : List Char) : (∀ c ∈ b, c ≠ '*' ∧ c ≠ '/') → ParText pt s →
      ParText pt ('/' :: '*' :: b ++ '*' :: '/' :: s)
  | group (pt q : Char) (g s : List Char) : q = pt ∨ q = '(' → ParText q g → ParText pt s →
      ParText pt (q :: g ++ closePar q :: s)

/-! ## Lemmas -/

theorem lineEnd_length (s t : List Char) (h : lineEnd s = some t) : t.length ≤ s.length := by
  induction s with
  | nil => cases h
  | cons c s ih =>
    unfold lineEnd at h
    split at h
    · cases h; exact le_rfl
    · exact le_trans (ih h) (Nat.le_succ _)

theorem blockEnd_length : ∀ s t : List Char, blockEnd s = some t → t.length ≤ s.length
  | [], _, h => by cases h
  | [_], _, h => by cases h
  | c :: d :: s, t, h => by
    unfold blockEnd at h
    split at h
    · exact le_trans (blockEnd_length (d :: s) t h) (Nat.le_succ _)
    · cases h; simp only [List.length_cons]; omega

theorem noComment_of_head {s : List Char} (h : s.head? ≠ some '/') : NoComment s := by
  intro t
  constructor <;> (rintro rfl; exact h rfl)

theorem skipCommentsF_noComment (f : ℕ) (s : List Char) (h : NoComment s) : skipCommentsF f s = some s := by
  cases f with
  | zero => rfl
  | succ f =>
    unfold skipCommentsF
    split
    · exact absurd rfl (h _).1
    · exact absurd rfl (h _).2
    · rfl

theorem lineEnd_cases (s t : List Char) (h : lineEnd s = some t) : t.head? = some '\n' := by
  induction s with
  | nil => cases h
  | cons c s ih =>
    unfold lineEnd at h
    split at h
    · rename_i hc; cases h; rw [hc]; rfl
    · exact ih h

/-- The bound of the loop plays no role. -/
theorem skipCommentsF_fuel : ∀ (n : ℕ) (s : List Char), s.length ≤ n → ∀ f, s.length ≤ f →
    skipCommentsF f s = skipCommentsF s.length s := by
  intro n
  induction n with
  | zero =>
    intro s hs f _
    have : s = [] := List.eq_nil_of_length_eq_zero (by omega)
    subst this
    cases f <;> rfl
  | succ n ih =>
    intro s hs f hf
    by_cases h1 : ∃ t, s = '/' :: '/' :: t
    · obtain ⟨t, rfl⟩ := h1
      obtain ⟨f, rfl⟩ : ∃ k, f = k + 1 := ⟨f - 1, by simp only [List.length_cons] at hf; omega⟩
      show (lineEnd ('/' :: '/' :: t)).bind (skipCommentsF f) =
        (lineEnd ('/' :: '/' :: t)).bind (skipCommentsF (t.length + 1))
      cases he : lineEnd ('/' :: '/' :: t) with
      | none => rfl
      | some u =>
        have hn : NoComment u := noComment_of_head (by rw [lineEnd_cases _ _ he]; decide)
        show skipCommentsF f u = skipCommentsF (t.length + 1) u
        rw [skipCommentsF_noComment _ _ hn, skipCommentsF_noComment _ _ hn]
    · by_cases h2 : ∃ t, s = '/' :: '*' :: t
      · obtain ⟨t, rfl⟩ := h2
        simp only [List.length_cons] at hs hf
        obtain ⟨f, rfl⟩ : ∃ k, f = k + 1 := ⟨f - 1, by omega⟩
        show (blockEnd t).bind (skipCommentsF f) = (blockEnd t).bind (skipCommentsF (t.length + 1))
        cases he : blockEnd t with
        | none => rfl
        | some u =>
          have hl := blockEnd_length _ _ he
          show skipCommentsF f u = skipCommentsF (t.length + 1) u
          rw [ih u (by omega) f (by omega), ih u (by omega) (t.length + 1) (by omega)]
      · have hn : NoComment s := fun t => ⟨fun h => h1 ⟨t, h⟩, fun h => h2 ⟨t, h⟩⟩
        rw [skipCommentsF_noComment _ _ hn, skipCommentsF_noComment _ _ hn]

theorem skipComments_noComment (s : List Char) (h : NoComment s) : skipComments s = some s :=
  skipCommentsF_noComment _ _ h

theorem lineEnd_append (b s : List Char) (h : ∀ c ∈ b, c ≠ '\n') :
    lineEnd (b ++ '\n' :: s) = some ('\n' :: s) := by
  induction b with
  | nil => simp [lineEnd]
  | cons c b ih =>
    show lineEnd (c :: (b ++ '\n' :: s)) = _
    unfold lineEnd
    rw [if_neg (h c (by simp))]
    exact ih fun d hd => h d (List.mem_cons_of_mem _ hd)

theorem blockEnd_append (b s : List Char) (h : ∀ c ∈ b, c ≠ '*' ∧ c ≠ '/') :
    blockEnd (b ++ '*' :: '/' :: s) = some s := by
  induction b with
  | nil => simp [blockEnd]
  | cons c b ih =>
    have hc := h c (by simp)
    have ih := ih fun d hd => h d (List.mem_cons_of_mem _ hd)
    cases b with
    | nil =>
      show blockEnd (c :: '*' :: '/' :: s) = _
      unfold blockEnd
      rw [if_pos ⟨hc.1, by decide⟩]
      exact ih
    | cons d b =>
      have hd := h d (by simp)
      show blockEnd (c :: d :: (b ++ '*' :: '/' :: s)) = _
      unfold blockEnd
      rw [if_pos ⟨hc.1, hd.2⟩]
      exact ih

theorem skipComments_line (b s : List Char) (h : ∀ c ∈ b, c ≠ '\n') :
    skipComments ('/' :: '/' :: b ++ '\n' :: s) = some ('\n' :: s) := by
  have e : lineEnd ('/' :: '/' :: (b ++ '\n' :: s)) = some ('\n' :: s) := by
    have := lineEnd_append ('/' :: '/' :: b) s (by
      intro c hc
      simp only [List.mem_cons] at hc
      rcases hc with rfl | rfl | hc
      · decide
      · decide
      · exact h c hc)
    exact this
  show (lineEnd ('/' :: '/' :: (b ++ '\n' :: s))).bind _ = _
  rw [e]
  exact skipCommentsF_noComment _ _ (noComment_of_head (by simp))

theorem skipComments_block (b s : List Char) (h : ∀ c ∈ b, c ≠ '*' ∧ c ≠ '/') :
    skipComments ('/' :: '*' :: b ++ '*' :: '/' :: s) = skipComments s := by
  show (blockEnd (b ++ '*' :: '/' :: s)).bind (skipCommentsF (b ++ '*' :: '/' :: s).length.succ) = _
  rw [blockEnd_append b s h]
  exact skipCommentsF_fuel _ s le_rfl _ (by simp only [List.length_append, List.length_cons]; omega)

theorem stringEnd_append (b s : List Char) (h : StrBody b) : stringEnd (b ++ '"' :: s) = some s := by
  induction h with
  | nil => simp [stringEnd]
  | plain c b h1 h2 _ ih =>
    show stringEnd (c :: (b ++ '"' :: s)) = _
    rw [stringEnd.eq_def]
    split
    · rename_i e; cases e
    · rename_i e; injection e with e1 e2; exact absurd e1 h2
    · rename_i e; injection e with e1 e2; exact absurd e1 h2
    · rename_i e; injection e with e1 e2; exact absurd e1 h1
    · rename_i e; injection e with e1 e2; rw [← e2]; exact ih
  | esc c b _ ih =>
    show stringEnd ('\\' :: c :: (b ++ '"' :: s)) = _
    rw [stringEnd]
    exact ih

theorem noComment_append_quote (b s : List Char) (h : NoComment b) : NoComment (b ++ '"' :: s) := by
  intro t
  match b, h with
  | [], _ => simp
  | [c], _ => simp
  | c :: d :: b, h =>
    constructor
    · intro e
      simp only [List.cons_append, List.cons.injEq] at e
      exact (h b).1 (by rw [e.1, e.2.1])
    · intro e
      simp only [List.cons_append, List.cons.injEq] at e
      exact (h b).2 (by rw [e.1, e.2.1])

theorem closePar_cases (pt : Char) : closePar pt = '>' ∨ closePar pt = ']' ∨ closePar pt = ')' := by
  unfold closePar
  split_ifs <;> simp

theorem noComment_append_close (pt : Char) (s t : List Char) (h : NoComment s) :
    NoComment (s ++ closePar pt :: t) := by
  intro u
  have hc : closePar pt ≠ '/' ∧ closePar pt ≠ '*' := by
    rcases closePar_cases pt with e | e | e <;> rw [e] <;> decide
  match s, h with
  | [], _ => simp [hc.1]
  | [c], _ => simp [hc.1, hc.2]
  | c :: d :: s, h =>
    constructor
    · intro e
      simp only [List.cons_append, List.cons.injEq] at e
      exact (h s).1 (by rw [e.1, e.2.1])
    · intro e
      simp only [List.cons_append, List.cons.injEq] at e
      exact (h s).2 (by rw [e.1, e.2.1])

/-- The opening parentheses that `skipParens` accepts (sourceloc_utils.cpp:71). -/
def IsPar (pt : Char) : Prop := pt = '(' ∨ pt = '<' ∨ pt = '['

theorem parLoop_mono : ∀ (f : ℕ) (pt : Char) (s t : List Char), parLoop f pt s = some t →
    parLoop (f + 1) pt s = some t := by
  intro f
  induction f with
  | zero => intro pt s t h; cases h
  | succ f ih =>
    intro pt s t h
    rw [parLoop] at h ⊢
    have hb : ∀ (x : Option (List Char)) (q : Char) (t : List Char), x.bind (parLoop f q) = some t →
        x.bind (parLoop (f + 1) q) = some t := by
      intro x q t hx
      cases x with
      | none => cases hx
      | some y => exact ih q y t hx
    have hb2 : ∀ (x : Option (List Char)) (q p : Char) (t : List Char),
        (x.bind (parLoop f q)).bind (parLoop f p) = some t →
        (x.bind (parLoop (f + 1) q)).bind (parLoop (f + 1) p) = some t := by
      intro x q p t hx
      cases hy : x.bind (parLoop f q) with
      | none => rw [hy] at hx; cases hx
      | some y =>
        rw [hy] at hx
        rw [hb x q y hy]
        exact ih p y t hx
    split_ifs at h ⊢
    · exact h
    · exact hb2 _ _ _ _ h
    · exact hb2 _ _ _ _ h
    · exact hb _ _ _ h
    · exact hb _ _ _ h

theorem parLoop_le (f g : ℕ) (hfg : f ≤ g) (pt : Char) (s t : List Char) (h : parLoop f pt s = some t) :
    parLoop g pt s = some t := by
  induction hfg with
  | refl => exact h
  | step _ ih => exact parLoop_mono _ _ _ _ ih

theorem bind_parLoop_le (x : Option (List Char)) (f g : ℕ) (hfg : f ≤ g) (pt : Char) (t : List Char)
    (h : x.bind (parLoop f pt) = some t) : x.bind (parLoop g pt) = some t := by
  cases x with
  | none => cases h
  | some y => exact parLoop_le f g hfg pt y t h

theorem isPar_close {pt : Char} (h : IsPar pt) : closePar pt ≠ pt ∧ closePar pt ≠ '(' ∧ closePar pt ≠ '"' ∧
    closePar pt ≠ '\'' ∧ closePar pt ≠ '/' ∧ closePar pt ≠ '\n' ∧ pt ≠ '"' ∧ pt ≠ '\'' ∧ pt ≠ '/' ∧ pt ≠ '\n' := by
  rcases h with rfl | rfl | rfl <;> decide

theorem parLoop_cons (f : ℕ) (pt c : Char) (s : List Char) : parLoop (f + 1) pt (c :: s) =
    if c = closePar pt then srcNext (c :: s)
    else if c = pt then ((srcNext (c :: s)).bind (parLoop f pt)).bind (parLoop f pt)
    else if c = '(' then ((srcNext (c :: s)).bind (parLoop f '(')).bind (parLoop f pt)
    else if c = '"' ∨ c = '\'' then (skipStr (c :: s)).bind (parLoop f pt)
    else (srcNext (c :: s)).bind (parLoop f pt) := rfl

/-- A character that is not special is passed by. -/
theorem parLoop_plain (f : ℕ) (pt c : Char) (s : List Char) (h1 : c ≠ closePar pt) (h2 : c ≠ pt) (h3 : c ≠ '(')
    (h4 : c ≠ '"') (h5 : c ≠ '\'') : parLoop (f + 1) pt (c :: s) = (skipComments s).bind (parLoop f pt) := by
  rw [parLoop_cons]
  rw [if_neg h1, if_neg h2, if_neg h3, if_neg (by simp [h4, h5])]
  rfl

theorem parLoop_quote (f : ℕ) (pt c : Char) (hp : IsPar pt) (s : List Char) (h : c = '"' ∨ c = '\'') :
    parLoop (f + 1) pt (c :: s) = (skipStr (c :: s)).bind (parLoop f pt) := by
  have hc := isPar_close hp
  rw [parLoop_cons]
  have h1 : c ≠ closePar pt := by rcases h with rfl | rfl; exact hc.2.2.1.symm; exact hc.2.2.2.1.symm
  have h2 : c ≠ pt := by rcases h with rfl | rfl; exact hc.2.2.2.2.2.2.1.symm; exact hc.2.2.2.2.2.2.2.1.symm
  have h3 : c ≠ '(' := by rcases h with rfl | rfl <;> decide
  rw [if_neg h1, if_neg h2, if_neg h3, if_pos h]

/-- The main loop finds the end of every text that may stand between the parentheses. -/
theorem parLoop_inside (pt : Char) (s : List Char) (h : ParText pt s) : IsPar pt → ∀ tail r,
    srcNext (closePar pt :: tail) = some r →
    (skipComments (s ++ closePar pt :: tail)).bind (parLoop (s.length + 1) pt) = some r := by
  induction h with
  | nil pt =>
    intro hp tail r hr
    have hc := isPar_close hp
    show (skipComments (closePar pt :: tail)).bind _ = _
    rw [skipComments_noComment _ (noComment_of_head (by simpa using hc.2.2.2.2.1))]
    show parLoop 1 pt (closePar pt :: tail) = some r
    rw [parLoop_cons]
    rw [if_pos rfl]
    exact hr
  | plain pt c s h1 h2 h3 h4 h5 h6 _ ih =>
    intro hp tail r hr
    show (skipComments (c :: (s ++ closePar pt :: tail))).bind _ = _
    rw [skipComments_noComment _ (noComment_of_head (by simpa using h6))]
    show parLoop (s.length + 1 + 1) pt (c :: (s ++ closePar pt :: tail)) = some r
    rw [parLoop_plain _ _ _ _ h2 h1 h3 h4 h5]
    exact ih hp tail r hr
  | quotient pt s h1 h2 _ ih =>
    intro hp tail r hr
    have hc := isPar_close hp
    have hc2 : closePar pt ≠ '*' := by
      rcases closePar_cases pt with e | e | e <;> rw [e] <;> decide
    have hn : NoComment ('/' :: (s ++ closePar pt :: tail)) := by
      intro t
      cases s with
      | nil => simp [hc.2.2.2.2.1, hc2]
      | cons d s =>
        simp only [List.head?_cons, ne_eq, Option.some.injEq] at h1 h2
        simp [h1, h2]
    show (skipComments ('/' :: (s ++ closePar pt :: tail))).bind _ = _
    rw [skipComments_noComment _ hn]
    show parLoop (s.length + 1 + 1) pt ('/' :: (s ++ closePar pt :: tail)) = some r
    rw [parLoop_plain _ _ _ _ hc.2.2.2.2.1.symm hc.2.2.2.2.2.2.2.2.1.symm (by decide) (by decide) (by decide)]
    exact ih hp tail r hr
  | string pt b s hb hnb hns _ ih =>
    intro hp tail r hr
    have e : '"' :: b ++ '"' :: s ++ closePar pt :: tail = '"' :: (b ++ '"' :: (s ++ closePar pt :: tail)) := by
      simp
    rw [e, skipComments_noComment _ (noComment_of_head (by simp))]
    have hsk : skipStr ('"' :: (b ++ '"' :: (s ++ closePar pt :: tail))) = some (s ++ closePar pt :: tail) := by
      unfold skipStr
      have : srcNext ('"' :: (b ++ '"' :: (s ++ closePar pt :: tail))) =
          some (b ++ '"' :: (s ++ closePar pt :: tail)) :=
        skipComments_noComment _ (noComment_append_quote _ _ hnb)
      rw [this]
      exact stringEnd_append _ _ hb
    show parLoop (('"' :: b ++ '"' :: s).length + 1) pt ('"' :: (b ++ '"' :: (s ++ closePar pt :: tail))) = some r
    rw [parLoop_quote _ _ _ hp _ (Or.inl rfl), hsk]
    have := ih hp tail r hr
    rw [skipComments_noComment _ (noComment_append_close _ _ _ hns)] at this
    exact parLoop_le _ _ (by simp only [List.length_append, List.length_cons]; omega) _ _ _ this
  | char pt c s hcb hns _ ih =>
    intro hp tail r hr
    show (skipComments ('\'' :: c :: '\'' :: (s ++ closePar pt :: tail))).bind _ = _
    rw [skipComments_noComment _ (noComment_of_head (by simp))]
    have hsk : skipStr ('\'' :: c :: '\'' :: (s ++ closePar pt :: tail)) = some (s ++ closePar pt :: tail) := by
      unfold skipStr
      have : srcNext ('\'' :: c :: '\'' :: (s ++ closePar pt :: tail)) =
          some (c :: '\'' :: (s ++ closePar pt :: tail)) :=
        skipComments_noComment _ fun t => by simp
      rw [this]
      simp [srcChar, srcOffset, hcb]
    show parLoop (s.length + 3 + 1) pt ('\'' :: c :: '\'' :: (s ++ closePar pt :: tail)) = some r
    rw [parLoop_quote _ _ _ hp _ (Or.inr rfl), hsk]
    have := ih hp tail r hr
    rw [skipComments_noComment _ (noComment_append_close _ _ _ hns)] at this
    exact parLoop_le _ _ (by omega) _ _ _ this
  | charEsc pt c s hns _ ih =>
    intro hp tail r hr
    show (skipComments ('\'' :: '\\' :: c :: '\'' :: (s ++ closePar pt :: tail))).bind _ = _
    rw [skipComments_noComment _ (noComment_of_head (by simp))]
    have hsk : skipStr ('\'' :: '\\' :: c :: '\'' :: (s ++ closePar pt :: tail)) =
        some (s ++ closePar pt :: tail) := by
      unfold skipStr
      have : srcNext ('\'' :: '\\' :: c :: '\'' :: (s ++ closePar pt :: tail)) =
          some ('\\' :: c :: '\'' :: (s ++ closePar pt :: tail)) :=
        skipComments_noComment _ fun t => by simp
      rw [this]
      simp [srcChar, srcOffset]
    show parLoop (s.length + 4 + 1) pt ('\'' :: '\\' :: c :: '\'' :: (s ++ closePar pt :: tail)) = some r
    rw [parLoop_quote _ _ _ hp _ (Or.inr rfl), hsk]
    have := ih hp tail r hr
    rw [skipComments_noComment _ (noComment_append_close _ _ _ hns)] at this
    exact parLoop_le _ _ (by omega) _ _ _ this
  | line pt b s hb _ ih =>
    intro hp tail r hr
    have hc := isPar_close hp
    have e : '/' :: '/' :: b ++ '\n' :: s ++ closePar pt :: tail =
        '/' :: '/' :: b ++ '\n' :: (s ++ closePar pt :: tail) := by simp
    rw [e, skipComments_line _ _ hb]
    have hl : ('/' :: '/' :: b ++ '\n' :: s).length + 1 = (b.length + s.length + 3) + 1 := by
      simp only [List.length_append, List.length_cons]; omega
    rw [hl]
    show parLoop (b.length + s.length + 3 + 1) pt ('\n' :: (s ++ closePar pt :: tail)) = some r
    rw [parLoop_plain _ _ _ _ hc.2.2.2.2.2.1.symm hc.2.2.2.2.2.2.2.2.2.symm (by decide) (by decide) (by decide)]
    exact bind_parLoop_le _ _ _ (by omega) _ _ (ih hp tail r hr)
  | block pt b s hb _ ih =>
    intro hp tail r hr
    have e : '/' :: '*' :: b ++ '*' :: '/' :: s ++ closePar pt :: tail =
        '/' :: '*' :: b ++ '*' :: '/' :: (s ++ closePar pt :: tail) := by simp
    rw [e, skipComments_block _ _ hb]
    exact bind_parLoop_le _ _ _ (by simp only [List.length_append, List.length_cons]; omega) _ _ (ih hp tail r hr)
  | group pt q g s hq _ _ ihg ihs =>
    intro hp tail r hr
    have hc := isPar_close hp
    have hpq : IsPar q := by
      rcases hq with rfl | rfl
      · exact hp
      · exact Or.inl rfl
    have hcq := isPar_close hpq
    have e : q :: g ++ closePar q :: s ++ closePar pt :: tail =
        q :: (g ++ closePar q :: (s ++ closePar pt :: tail)) := by simp
    rw [e, skipComments_noComment _ (noComment_of_head (by simpa using hcq.2.2.2.2.2.2.2.2.1))]
    have hs := ihs hp tail r hr
    obtain ⟨u, hu⟩ : ∃ u, skipComments (s ++ closePar pt :: tail) = some u := by
      cases hk : skipComments (s ++ closePar pt :: tail) with
      | none => rw [hk] at hs; cases hs
      | some u => exact ⟨u, rfl⟩
    rw [hu] at hs
    have hg := ihg hpq (s ++ closePar pt :: tail) u hu
    have hl : (q :: g ++ closePar q :: s).length + 1 = (g.length + s.length + 2) + 1 := by
      simp only [List.length_append, List.length_cons]; omega
    rw [hl]
    show parLoop (g.length + s.length + 2 + 1) pt (q :: (g ++ closePar q :: (s ++ closePar pt :: tail))) = some r
    have hfin : ((srcNext (q :: (g ++ closePar q :: (s ++ closePar pt :: tail)))).bind
        (parLoop (g.length + s.length + 2) q)).bind (parLoop (g.length + s.length + 2) pt) = some r := by
      have h1 : (srcNext (q :: (g ++ closePar q :: (s ++ closePar pt :: tail)))).bind
          (parLoop (g.length + s.length + 2) q) = some u :=
        bind_parLoop_le _ _ _ (by omega) _ _ hg
      rw [h1]
      exact parLoop_le _ _ (by omega) _ _ _ hs
    rw [parLoop_cons]
    by_cases hqp : q = pt
    · subst hqp
      rw [if_neg hcq.1.symm, if_pos rfl]
      exact hfin
    · have hq2 : q = '(' := hq.resolve_left hqp
      subst hq2
      rw [if_neg hc.2.1.symm, if_neg hqp, if_pos rfl]
      exact hfin

theorem findChar_plain (ct : Char) : ∀ (pre s : List Char), (∀ c ∈ pre, c ≠ ct ∧ c ≠ '/') →
    ct ≠ '/' → ∀ f, pre.length < f → findCharF f ct (pre ++ ct :: s) = some (ct :: s) := by
  intro pre s
  induction pre with
  | nil =>
    intro _ _ f hf
    obtain ⟨f, rfl⟩ : ∃ k, f = k + 1 := ⟨f - 1, by simp only [List.length_nil] at hf; omega⟩
    show findCharF (f + 1) ct (ct :: s) = _
    rw [findCharF]
    exact if_pos rfl
  | cons c pre ih =>
    intro h hct f hf
    simp only [List.length_cons] at hf
    obtain ⟨f, rfl⟩ : ∃ k, f = k + 1 := ⟨f - 1, by omega⟩
    have hc := h c (by simp)
    have hpre : ∀ c ∈ pre, c ≠ ct ∧ c ≠ '/' := fun d hd => h d (List.mem_cons_of_mem _ hd)
    show findCharF (f + 1) ct (c :: (pre ++ ct :: s)) = _
    rw [findCharF]
    refine (if_neg hc.1).trans ?_
    have hn : NoComment (pre ++ ct :: s) := by
      apply noComment_of_head
      cases pre with
      | nil => simpa using hct
      | cons d pre => simpa using (hpre d (by simp)).2
    show (skipComments (pre ++ ct :: s)).bind _ = _
    rw [skipComments_noComment _ hn]
    exact ih hpre hct f (by omega)

/-- **C104.** From a location before an opening parenthesis `pt`, with no comment or quotient between, hilapp
finds the character after the parenthesis that closes it, for every text between the two that is made of
characters, literals, balanced groups and comments without `*` and `/` inside, with no comment directly after a
literal and no string literal beginning like a comment. The cases left out are the theorems below. -/
theorem C104_parens_partial (pt : Char) (hp : IsPar pt) (pre s tail : List Char)
    (hpre : ∀ c ∈ pre, c ≠ pt ∧ c ≠ '/') (hs : ParText pt s) (ht : NoComment tail) :
    skipParens pt (pre ++ pt :: (s ++ closePar pt :: tail)) = some tail := by
  have hc := isPar_close hp
  unfold skipParens findChar
  rw [findChar_plain pt pre _ hpre hc.2.2.2.2.2.2.2.2.1 _ (by simp only [List.length_append]; omega)]
  have h := parLoop_inside pt s hs hp tail tail (skipComments_noComment _ ht)
  exact bind_parLoop_le _ _ _ (by simp only [List.length_append, List.length_cons]; omega) _ _ h

/-! ## The word after the parameter list -/

theorem skipSpaceF_append : ∀ (b s : List Char), (∀ c ∈ b, isSpaceC c = true) → isSpaceC (srcChar s) = false →
    NoComment s → ∀ f, b.length < f → skipSpaceF f (b ++ s) = some s := by
  intro b s
  induction b with
  | nil =>
    intro _ h _ f hf
    obtain ⟨f, rfl⟩ : ∃ k, f = k + 1 := ⟨f - 1, by simp only [List.length_nil] at hf; omega⟩
    show skipSpaceF (f + 1) s = _
    rw [skipSpaceF, h]
    rfl
  | cons c b ih =>
    intro hb h hn f hf
    simp only [List.length_cons] at hf
    obtain ⟨f, rfl⟩ : ∃ k, f = k + 1 := ⟨f - 1, by omega⟩
    have hb' : ∀ c ∈ b, isSpaceC c = true := fun d hd => hb d (List.mem_cons_of_mem _ hd)
    have hn' : NoComment (b ++ s) := by
      cases b with
      | nil => exact hn
      | cons d b =>
        apply noComment_of_head
        have := hb' d (by simp)
        simp only [List.cons_append, List.head?_cons, ne_eq, Option.some.injEq]
        rintro rfl
        revert this
        decide
    show skipSpaceF (f + 1) (c :: (b ++ s)) = _
    rw [skipSpaceF]
    have hc : isSpaceC (srcChar (c :: (b ++ s))) = true := hb c (by simp)
    rw [hc]
    show (skipComments (b ++ s)).bind _ = _
    rw [skipComments_noComment _ hn']
    exact ih hb' h hn f (by omega)

theorem wordF_append : ∀ (w s : List Char), (∀ c ∈ w, isWordC c = true) → isWordC (srcChar s) = false →
    NoComment s → ∀ f, w.length < f → wordF f (w ++ s) = some w := by
  intro w s
  induction w with
  | nil =>
    intro _ h _ f hf
    obtain ⟨f, rfl⟩ : ∃ k, f = k + 1 := ⟨f - 1, by simp only [List.length_nil] at hf; omega⟩
    show wordF (f + 1) s = _
    rw [wordF, h]
    rfl
  | cons c w ih =>
    intro hw h hn f hf
    simp only [List.length_cons] at hf
    obtain ⟨f, rfl⟩ : ∃ k, f = k + 1 := ⟨f - 1, by omega⟩
    have hw' : ∀ c ∈ w, isWordC c = true := fun d hd => hw d (List.mem_cons_of_mem _ hd)
    have hn' : NoComment (w ++ s) := by
      cases w with
      | nil => exact hn
      | cons d w =>
        apply noComment_of_head
        have := hw' d (by simp)
        simp only [List.cons_append, List.head?_cons, ne_eq, Option.some.injEq]
        rintro rfl
        revert this
        decide
    show wordF (f + 1) (c :: (w ++ s)) = _
    rw [wordF]
    have hc : isWordC (srcChar (c :: (w ++ s))) = true := hw c (by simp)
    rw [hc]
    show ((skipComments (w ++ s)).bind _).map _ = _
    rw [skipComments_noComment _ hn']
    show (wordF f (w ++ s)).map _ = _
    rw [ih hw' h hn f (by omega)]
    rfl

/-- **C104** (the word after a parameter list). The keyword `out_only` or `const_function`, or any other word `w`,
that follows the parameter list of a method after white space is found, for every parameter list and name
as in `C104_parens_partial`. The method is treated as `out_only` only if this word is written there. -/
theorem C104_modifier_partial (pre s sp w tail : List Char) (hpre : ∀ c ∈ pre, c ≠ '(' ∧ c ≠ '/')
    (hs : ParText '(' s) (hsp : ∀ c ∈ sp, isSpaceC c = true) (hw : w ≠ []) (hww : ∀ c ∈ w, isWordC c = true)
    (ht : isWordC (srcChar tail) = false) (htc : NoComment tail) :
    methodModifier (pre ++ '(' :: (s ++ ')' :: (sp ++ (w ++ tail)))) = some w := by
  obtain ⟨c, w', rfl⟩ : ∃ c w', w = c :: w' := by
    cases w with
    | nil => exact absurd rfl hw
    | cons c w' => exact ⟨c, w', rfl⟩
  have hcw := hww c (by simp)
  have hcs : isSpaceC c = false := by
    cases hx : isSpaceC c with
    | false => rfl
    | true =>
      exfalso
      simp only [isSpaceC, Bool.or_eq_true, decide_eq_true_eq] at hx
      rcases hx with ((((rfl | rfl) | rfl) | rfl) | rfl) | rfl <;> revert hcw <;> decide
  have hcn : c ≠ '/' := by rintro rfl; revert hcw; decide
  have hnw : NoComment (c :: w' ++ tail) := noComment_of_head (by simpa using hcn)
  have hn : NoComment (sp ++ (c :: w' ++ tail)) := by
    cases sp with
    | nil => exact hnw
    | cons d sp =>
      apply noComment_of_head
      have := hsp d (by simp)
      simp only [List.cons_append, List.head?_cons, ne_eq, Option.some.injEq]
      rintro rfl
      revert this
      decide
  unfold methodModifier
  have h := C104_parens_partial '(' (Or.inl rfl) pre s (sp ++ (c :: w' ++ tail)) hpre hs hn
  rw [show closePar '(' = ')' from rfl] at h
  rw [h]
  show srcNextWord (sp ++ (c :: w' ++ tail)) = _
  unfold srcNextWord
  rw [skipSpaceF_append sp (c :: w' ++ tail) hsp hcs hnw _ (by simp only [List.length_append]; omega)]
  show (if isWordC c = true then wordF ((c :: w' ++ tail).length + 1) (c :: w' ++ tail) else _) = _
  rw [if_pos hcw]
  exact wordF_append _ _ hww ht htc _ (by simp only [List.length_append, List.length_cons]; omega)

/-- **C104** (the three kinds of parentheses). `C104_parens_partial` with the closing parenthesis written out. -/
theorem C104_pairs_partial (pt cl : Char) (hp : (pt, cl) ∈ [('(', ')'), ('[', ']'), ('<', '>')]) (pre s tail : List Char)
    (hpre : ∀ c ∈ pre, c ≠ pt ∧ c ≠ '/') (hs : ParText pt s) (ht : NoComment tail) :
    skipParens pt (pre ++ pt :: (s ++ cl :: tail)) = some tail := by
  simp only [List.mem_cons, List.not_mem_nil, or_false, Prod.mk.injEq] at hp
  rcases hp with ⟨rfl, rfl⟩ | ⟨rfl, rfl⟩ | ⟨rfl, rfl⟩
  · exact C104_parens_partial '(' (Or.inl rfl) pre s tail hpre hs ht
  · exact C104_parens_partial '[' (Or.inr (Or.inr rfl)) pre s tail hpre hs ht
  · exact C104_parens_partial '<' (Or.inr (Or.inl rfl)) pre s tail hpre hs ht

example : skipParens '[' "a[i (1] ) 2] = 3".toList = some " = 3".toList ∧ skipParens '<' "A<(1>2)> b".toList = some " b".toList := by decide +kernel

/-- **C104** (white space). `C104_modifier_partial` with the six white space characters written out: blanks, tabulators, ends of lines. -/
theorem C104_spaces_partial (pre s sp w tail : List Char) (hpre : ∀ c ∈ pre, c ≠ '(' ∧ c ≠ '/')
    (hs : ParText '(' s) (hsp : ∀ c ∈ sp, c ∈ [' ', '\n', '\t', '\r', '\x0b', '\x0c']) (hw : w ≠ []) (hww : ∀ c ∈ w, isWordC c = true)
    (ht : isWordC (srcChar tail) = false) (htc : NoComment tail) :
    methodModifier (pre ++ '(' :: (s ++ ')' :: (sp ++ (w ++ tail)))) = some w := by
  refine C104_modifier_partial pre s sp w tail hpre hs (fun c hc => ?_) hw hww ht htc
  have := hsp c hc
  simp only [List.mem_cons, List.not_mem_nil, or_false] at this
  rcases this with rfl | rfl | rfl | rfl | rfl | rfl <;> decide

/-- The hypotheses are met by `f(int a = g(1, ')'), /* b, c */ int b) out_only {`. -/
example : methodModifier "(int a = g(1, ')'), /* b, c */ int b) out_only {".toList = some "out_only".toList := by
  refine C104_modifier_partial [] "int a = g(1, ')'), /* b, c */ int b".toList [' '] "out_only".toList " {".toList
    (by simp) ?_ (by decide) (by decide) (by decide) (by decide) (noComment_of_head (by decide))
  have plain : ∀ (p s : List Char), (∀ c ∈ p, c ≠ '(' ∧ c ≠ ')' ∧ c ≠ '"' ∧ c ≠ '\'' ∧ c ≠ '/') →
      ParText '(' s → ParText '(' (p ++ s) := by
    intro p s hp hs
    induction p with
    | nil => exact hs
    | cons c p ih =>
      have hc := hp c (by simp)
      exact ParText.plain _ _ _ hc.1 hc.2.1 hc.1 hc.2.2.1 hc.2.2.2.1 hc.2.2.2.2
        (ih fun d hd => hp d (List.mem_cons_of_mem _ hd))
  refine plain "int a = g".toList _ (by decide) ?_
  refine ParText.group '(' '(' "1, ')'".toList ", /* b, c */ int b".toList (Or.inl rfl) ?_ ?_
  · exact plain "1, ".toList _ (by decide) (ParText.char _ ')' [] (by decide) (noComment_of_head (by decide))
      (ParText.nil _))
  · refine plain ", ".toList _ (by decide) ?_
    refine ParText.block _ " b, c ".toList " int b".toList (by decide) ?_
    exact plain " int b".toList [] (by decide) (ParText.nil _)

/-- A quotient, a string with an escaped quotation mark, a line comment, and the brackets of a template. -/
example : ParText '<' "a/b \"x\\\"\" // )\n (1>2)".toList := by
  refine ParText.plain _ _ _ (by decide) (by decide) (by decide) (by decide) (by decide) (by decide) ?_
  refine ParText.quotient _ _ (by decide) (by decide) ?_
  refine ParText.plain _ _ _ (by decide) (by decide) (by decide) (by decide) (by decide) (by decide) ?_
  refine ParText.plain _ _ _ (by decide) (by decide) (by decide) (by decide) (by decide) (by decide) ?_
  refine ParText.string _ "x\\\"".toList " // )\n (1>2)".toList ?_ (noComment_of_head (by decide))
    (noComment_of_head (by decide)) ?_
  · exact StrBody.plain _ _ (by decide) (by decide) (StrBody.esc _ _ StrBody.nil)
  refine ParText.plain _ _ _ (by decide) (by decide) (by decide) (by decide) (by decide) (by decide) ?_
  refine ParText.line _ " )".toList " (1>2)".toList (by decide) ?_
  refine ParText.plain _ _ _ (by decide) (by decide) (by decide) (by decide) (by decide) (by decide) ?_
  refine ParText.group _ '(' "1>2".toList [] (Or.inr rfl) ?_ (ParText.nil _)
  refine ParText.plain _ _ _ (by decide) (by decide) (by decide) (by decide) (by decide) (by decide) ?_
  refine ParText.plain _ _ _ (by decide) (by decide) (by decide) (by decide) (by decide) (by decide) ?_
  exact ParText.plain _ _ _ (by decide) (by decide) (by decide) (by decide) (by decide) (by decide) (ParText.nil _)

/-! ## Where it fails -/

/-- **C104 fails** with comments that contain `*` or `/`, in particular with every comment of the form `/** ... */`:
a closing parenthesis in it ends the list, and `out_only` after the list is not found. -/
theorem C104_comment_wrong :
    methodModifier "(int a /** :) */) out_only {".toList = some "*".toList ∧
    methodModifier "(int a /* 2*b :) */) out_only {".toList = some "*".toList ∧
    methodModifier "(int a /* m/s :) */) out_only {".toList = some "*".toList := by
  decide +kernel

/-- **C104 fails** if a string literal begins like a comment: the rest of the line, with the end of the list, is
passed by. Here the search runs beyond the end of the file; in the second case it ends in a later function. -/
theorem C104_string_wrong :
    methodModifier "(const char *s = \"//\") out_only {}\n".toList = none ∧
    methodModifier "(const char *s = \"/*\") out_only { print(\"*/\"); } void g() const_function {".toList =
      some ";".toList := by
  decide +kernel

/-- **C104 fails** if a comment directly follows a literal: the comment is read as text. -/
theorem C104_after_literal_wrong :
    methodModifier "(char c = 'a'/* :) */) out_only {".toList = some "*".toList ∧
    methodModifier "(char c = 'a' /* :) */) out_only {".toList = some "out_only".toList := by
  decide +kernel

/-- **C104 fails** with a digit separator (C++14) two characters before the end of the list. -/
theorem C104_separator_wrong :
    methodModifier "(int n = 1'0) out_only { f(); }".toList = none := by
  decide +kernel

/-- **C104 fails** if a comment is between the word and the word before it: they are read as one word. -/
theorem C104_joined_wrong :
    srcNextWord "out_only/* always */const {".toList = some "out_onlyconst".toList := by
  decide +kernel

/-- **C104, end of file.** If the parenthesis is nowhere closed the search does not stop at the end of the file. The
parser of the language has accepted the text before, so that this needs one of the failures above. -/
theorem C104_runs_over (pt : Char) (hp : IsPar pt) (s : List Char) (f : ℕ)
    (hs : ∀ c ∈ s, c ≠ pt ∧ c ≠ closePar pt ∧ c ≠ '(' ∧ c ≠ '"' ∧ c ≠ '\'' ∧ c ≠ '/') : parLoop f pt s = none := by
  induction s generalizing f with
  | nil =>
    cases f with
    | zero => rfl
    | succ f =>
      rw [parLoop]
      rcases hp with rfl | rfl | rfl <;> simp [srcChar, closePar, srcNext]
  | cons c s ih =>
    cases f with
    | zero => rfl
    | succ f =>
      obtain ⟨h1, h2, h3, h4, h5, _⟩ := hs c (by simp)
      have hs' : ∀ c ∈ s, c ≠ pt ∧ c ≠ closePar pt ∧ c ≠ '(' ∧ c ≠ '"' ∧ c ≠ '\'' ∧ c ≠ '/' :=
        fun d hd => hs d (List.mem_cons_of_mem _ hd)
      rw [parLoop_plain _ _ _ _ h2 h1 h3 h4 h5, skipComments_noComment]
      · exact ih f hs'
      · apply noComment_of_head
        cases s with
        | nil => simp
        | cons d s => simpa using (hs' d (by simp)).2.2.2.2.2

example : skipParens '(' "f(a, b".toList = none := by decide +kernel

end Hila
