import Verif.Lemmas.Input

/-!
# C20: parameter-file tokens are matched as documented

Specification: `Words`, `Reads`, `KeyEnd` (labels), `IsToken` (tokens), `content`, `unlines`, `Pending`
(lines of the file), `NextTok` (next token in the rest of the line or on the next significant line).
-/

namespace Hila

/-! ### Specification -/

/-- The number of quote marks is even. -/
def EvenQuotes (l : Str) : Prop := l.count '"' % 2 = 0

/-- `tok` is the token at the beginning of `l`, `rest` what follows. A comma is a token. Otherwise a
token is a non-empty string with paired quotes and without white space and commas outside quotes; it
extends to the end of the line, white space or a comma. -/
def IsToken (l tok rest : Str) : Prop :=
  l = tok ++ rest ∧
  (tok = [','] ∨
    (tok ≠ [] ∧ (∀ a c b, tok = a ++ c :: b → EvenQuotes a → isSp c = false ∧ c ≠ ',') ∧
      EvenQuotes tok ∧ (rest = [] ∨ headSp rest = true ∨ rest.head? = some ',')))

/-- What counts of a line: no leading white space, no comment. -/
def content (l : Str) : Str := (skipWs l).takeWhile (· ≠ '#')

/-- The text with the given lines. -/
def unlines : List Str → Str
  | [] => []
  | [l] => l
  | l :: r => l ++ '\n' :: unlines r

/-- The lines contain no line ends. -/
def AreLines (lines : List Str) : Prop := ∀ l ∈ lines, '\n' ∉ l

/-- The text to be read next is `line`, and after it the lines `lines`: the rest of the current line,
or the content of the next line that has any. -/
def Pending (s : InSt) (line : Str) (lines : List Str) : Prop :=
  (line ≠ [] ∧ line = skipWs s.rest ∧ s.file = unlines lines ∧ AreLines lines) ∨
  (AllSp s.rest ∧ ∃ pre l, s.file = unlines (pre ++ l :: lines) ∧ AreLines (pre ++ l :: lines) ∧
    (∀ p ∈ pre, content p = []) ∧ line = content l ∧ line ≠ [])

/-- There is nothing more to read. -/
def AtEnd (s : InSt) : Prop :=
  AllSp s.rest ∧ ∃ lines, s.file = unlines lines ∧ AreLines lines ∧ ∀ l ∈ lines, content l = []

/-- The next token is `tok`; `s'` is the state after it. -/
def NextTok (s : InSt) (tok : Str) (s' : InSt) : Prop :=
  ∃ line lines r, Pending s line lines ∧ IsToken line tok r ∧
    s' = { s with rest := r, file := unlines lines }

/-- Decimal representation of an integer. -/
def decimal (z : ℤ) : Str :=
  if z < 0 then '-' :: Nat.toDigits 10 z.natAbs else Nat.toDigits 10 z.natAbs

/-! ### Lines -/

theorem getLine_skipWs (fuel : ℕ) (file : Str) :
    getLine (fuel + 1) file = getLine (fuel + 1) (skipWs file) := by
  unfold getLine
  rw [skipWs_idem]

theorem takeWhile_line (l : Str) (hl : '\n' ∉ l) (r : Str) :
    (l ++ '\n' :: r).takeWhile (· ≠ '\n') = l ∧
      ((l ++ '\n' :: r).dropWhile (· ≠ '\n')).drop 1 = r := by
  have h : ∀ c ∈ l, (decide (c ≠ '\n')) = true := by
    intro c hc; simp; rintro rfl; exact hl hc
  rw [List.takeWhile_append_of_pos h, List.dropWhile_append_of_pos h]
  simp

theorem takeWhile_all (l : Str) (hl : '\n' ∉ l) :
    l.takeWhile (· ≠ '\n') = l ∧ (l.dropWhile (· ≠ '\n')).drop 1 = [] := by
  have h : ∀ c ∈ l, (decide (c ≠ '\n')) = true := by
    intro c hc; simp; rintro rfl; exact hl hc
  have h1 := List.takeWhile_append_of_pos (l₂ := []) h
  have h2 := List.dropWhile_append_of_pos (l₂ := []) h
  simp only [List.append_nil, List.takeWhile_nil, List.dropWhile_nil] at h1 h2
  rw [h1, h2]; exact ⟨rfl, rfl⟩

theorem not_mem_skipWs {l : Str} (c : Char) (h : c ∉ l) : c ∉ skipWs l := fun hc =>
  h ((List.dropWhile_sublist _).mem hc)

theorem unlines_cons (l : Str) (r : List Str) (hr : r ≠ []) :
    unlines (l :: r) = l ++ '\n' :: unlines r := by
  cases r with
  | nil => exact absurd rfl hr
  | cons a r => rfl

/-- `get_line` returns the content of the first line that has any. -/
theorem getLine_spec (lines : List Str) (hl : AreLines lines) : ∀ fuel, lines.length < fuel →
    getLine fuel (unlines lines) =
      match lines.dropWhile (fun l => content l = []) with
      | [] => (none, [])
      | l :: r => (some (content l), unlines r) := by
  induction lines with
  | nil =>
    intro fuel hf
    obtain ⟨fuel, rfl⟩ : ∃ f, fuel = f + 1 := ⟨fuel - 1, by simp at hf; omega⟩
    rfl
  | cons l r ih =>
    intro fuel hf
    obtain ⟨fuel, rfl⟩ : ∃ f, fuel = f + 1 := ⟨fuel - 1, by simp at hf; omega⟩
    have hln : '\n' ∉ l := hl l List.mem_cons_self
    have hr : AreLines r := fun x hx => hl x (List.mem_cons_of_mem _ hx)
    rw [List.length_cons] at hf
    have hsk : '\n' ∉ skipWs l := not_mem_skipWs _ hln
    cases hc : skipWs l with
    | nil =>
      -- a blank line
      have hcont : content l = [] := by unfold content; rw [hc]; rfl
      have hall := allSp_of_skipWs l hc
      rw [List.dropWhile_cons_of_pos (by simpa using hcont)]
      by_cases hr0 : r = []
      · subst hr0
        show getLine (fuel + 1) l = (none, [])
        rw [getLine_skipWs, hc]
        rfl
      · rw [unlines_cons l r hr0, getLine_skipWs]
        have : l ++ '\n' :: unlines r = (l ++ ['\n']) ++ unlines r := by simp
        rw [this, skipWs_append, ← getLine_skipWs, ih hr (fuel + 1) (by omega)]
        intro c hc
        rcases List.mem_append.1 hc with h | h
        · exact hall c h
        · rw [List.mem_singleton.1 h]; rfl
    | cons c t =>
      have hsplit : ∃ s, AllSp s ∧ l = s ++ (c :: t) := by
        obtain ⟨s, h1, h2⟩ := skipWs_split l
        rw [hc] at h2; exact ⟨s, h1, h2⟩
      obtain ⟨s, hs, hls⟩ := hsplit
      have hcn : isSp c = false := by
        have := headSp_skipWs l
        rw [hc] at this
        simpa [headSp] using this
      have hct : '\n' ∉ c :: t := by rw [← hc]; exact hsk
      have hfile : skipWs (unlines (l :: r)) = c :: t ++ (if r = [] then [] else '\n' :: unlines r) := by
        by_cases hr0 : r = []
        · subst hr0
          rw [if_pos rfl, List.append_nil]
          exact hc
        · rw [if_neg hr0, unlines_cons l r hr0, hls, List.append_assoc, skipWs_append _ _ hs]
          exact skipWs_of_not _ (by simp [headSp, hcn])
      have htd : ((c :: t ++ (if r = [] then [] else '\n' :: unlines r)).takeWhile (· ≠ '\n') = c :: t) ∧
          ((c :: t ++ (if r = [] then [] else '\n' :: unlines r)).dropWhile (· ≠ '\n')).drop 1 =
            unlines r := by
        by_cases hr0 : r = []
        · subst hr0
          rw [if_pos rfl, List.append_nil]
          exact takeWhile_all _ hct
        · rw [if_neg hr0]
          exact takeWhile_line _ hct _
      unfold getLine
      rw [hfile]
      dsimp only [List.cons_append] at htd ⊢
      rw [htd.1, htd.2]
      by_cases hcc : c = '#'
      · have hcont : content l = [] := by unfold content; rw [hc, hcc]; rfl
        rw [if_pos hcc, List.dropWhile_cons_of_pos (by simpa using hcont), ih hr fuel (by omega)]
      · have hcont : content l = (c :: t).takeWhile (· ≠ '#') := by unfold content; rw [hc]
        have hne : content l ≠ [] := by rw [hcont]; simp [hcc]
        rw [if_neg hcc, List.dropWhile_cons_of_neg (by simpa using hne)]
        dsimp only
        rw [hcont]

theorem unlines_length (lines : List Str) : lines.length ≤ (unlines lines).length + 1 := by
  induction lines with
  | nil => simp
  | cons l r ih =>
    by_cases hr : r = []
    · subst hr; simp
    · rw [unlines_cons l r hr]
      simp only [List.length_cons, List.length_append]
      omega

theorem getLine_file (lines : List Str) (hl : AreLines lines) :
    getLine ((unlines lines).length + 2) (unlines lines) =
      match lines.dropWhile (fun l => content l = []) with
      | [] => (none, [])
      | l :: r => (some (content l), unlines r) :=
  getLine_spec lines hl _ (by have := unlines_length lines; omega)

theorem removeWhitespace_pending (s : InSt) (line : Str) (lines : List Str)
    (h : Pending s line lines) :
    removeWhitespace s = (true, { s with rest := line, file := unlines lines }) := by
  unfold removeWhitespace
  rcases h with ⟨h1, h2, h3, _⟩ | ⟨h1, pre, l, h2, h3, h4, h5, h6⟩
  · rw [← h2]
    cases line with
    | nil => exact absurd rfl h1
    | cons c r => rw [h3.symm]
  · rw [skipWs_allSp _ h1, h2, getLine_file _ h3]
    have hd : (pre ++ l :: lines).dropWhile (fun l => content l = []) = l :: lines := by
      rw [List.dropWhile_append_of_pos (by intro p hp; simpa using h4 p hp),
        List.dropWhile_cons_of_neg (by rw [← h5]; simpa using h6)]
    rw [hd]
    dsimp only
    rw [h5]

theorem removeWhitespace_end (s : InSt) (h : AtEnd s) :
    removeWhitespace s = (false, { s with rest := [], file := [] }) := by
  obtain ⟨h1, lines, h2, h3, h4⟩ := h
  unfold removeWhitespace
  rw [skipWs_allSp _ h1, h2, getLine_file _ h3]
  have hd : lines.dropWhile (fun l => content l = []) = [] := by
    have h1 := List.dropWhile_append_of_pos (p := fun l => decide (content l = [])) (l₁ := lines)
      (l₂ := []) (by intro l hl; simpa using h4 l hl)
    simpa using h1
  rw [hd]

theorem content_head (l : Str) : headSp (content l) = false := by
  unfold content
  have h := headSp_skipWs l
  cases hl : skipWs l with
  | nil => rfl
  | cons c r =>
    rw [hl] at h
    by_cases hc : c = '#'
    · subst hc; rfl
    · simpa [headSp, hc] using h

theorem pending_head {s : InSt} {line : Str} {lines : List Str} (h : Pending s line lines) :
    line ≠ [] ∧ headSp line = false := by
  rcases h with ⟨h1, h2, _⟩ | ⟨_, _, _, _, _, _, h5, h6⟩
  · exact ⟨h1, by rw [h2]; exact headSp_skipWs _⟩
  · exact ⟨h6, by rw [h5]; exact content_head _⟩

theorem pending_lines {s : InSt} {line : Str} {lines : List Str} (h : Pending s line lines) :
    AreLines lines := by
  rcases h with ⟨_, _, _, h⟩ | ⟨_, pre, l, _, h, _⟩
  · exact h
  · exact fun x hx => h x (List.mem_append.2 (.inr (List.mem_cons_of_mem _ hx)))

/-! ### Tokens -/

/-- State of the quotes after `l`. -/
def quoteState (q : Bool) (l : Str) : Bool := l.foldl (fun q c => if c = '"' then !q else q) q

theorem quoteState_eq (l : Str) : ∀ q, quoteState q l = xor q (decide (l.count '"' % 2 = 1)) := by
  induction l with
  | nil => intro q; simp [quoteState]
  | cons c l ih =>
    intro q
    have : quoteState q (c :: l) = quoteState (if c = '"' then !q else q) l := rfl
    rw [this, ih, List.count_cons]
    by_cases hc : c = '"'
    · simp only [hc, if_true, beq_self_eq_true]
      rcases Nat.mod_two_eq_zero_or_one (l.count '"') with h | h
      · have h2 : (l.count '"' + 1) % 2 = 1 := by omega
        rw [h, h2]; cases q <;> rfl
      · have h2 : (l.count '"' + 1) % 2 = 0 := by omega
        rw [h, h2]; cases q <;> rfl
    · simp [hc]

theorem evenQuotes_iff (l : Str) : EvenQuotes l ↔ quoteState false l = false := by
  rw [quoteState_eq]
  unfold EvenQuotes
  rcases Nat.mod_two_eq_zero_or_one (l.count '"') with h | h <;> simp [h]

theorem scanTok_append (t r : Str) : ∀ q,
    (∀ a c b, t = a ++ c :: b → quoteState q a = false → isSp c = false ∧ c ≠ ',') →
    (r = [] ∨ (quoteState q t = false ∧ (headSp r = true ∨ r.head? = some ','))) →
    scanTok q (t ++ r) = (t, quoteState q t) := by
  induction t with
  | nil =>
    intro q _ hr
    rcases hr with rfl | ⟨h1, h2⟩
    · rfl
    · have h1 : q = false := h1
      cases r with
      | nil => rfl
      | cons d r =>
        have hd : isSp d = true ∨ d = ',' := by simpa [headSp] using h2
        rcases hd with hd | hd <;> simp [scanTok, hd, h1, quoteState]
  | cons c t ih =>
    intro q h hr
    have hc : ((!isSp c && decide (c ≠ ',')) || q) = true := by
      cases q with
      | true => simp
      | false =>
        obtain ⟨h1, h2⟩ := h [] c t rfl rfl
        simp [h1, h2]
    have hq : quoteState q (c :: t) = quoteState (if c = '"' then !q else q) t := rfl
    simp only [List.cons_append, scanTok]
    rw [if_pos hc, ih (if c = '"' then !q else q) ?_ ?_]
    · rw [hq]
    · intro a d b he hst
      exact h (c :: a) d b (by rw [he]; rfl) hst
    · rw [← hq]; exact hr

theorem scanTok_exists (l : Str) : ∀ q, ∃ t r, l = t ++ r ∧
    (∀ a c b, t = a ++ c :: b → quoteState q a = false → isSp c = false ∧ c ≠ ',') ∧
    (r = [] ∨ (quoteState q t = false ∧ (headSp r = true ∨ r.head? = some ','))) := by
  induction l with
  | nil =>
    intro q
    refine ⟨[], [], rfl, ?_, .inl rfl⟩
    intro a c b h
    simp at h
  | cons d l ih =>
    intro q
    by_cases hc : ((!isSp d && decide (d ≠ ',')) || q) = true
    · obtain ⟨t, r, h1, h2, h3⟩ := ih (if d = '"' then !q else q)
      refine ⟨d :: t, r, by rw [h1]; rfl, ?_, h3⟩
      intro a c b he hst
      cases a with
      | nil =>
        simp only [List.nil_append, List.cons.injEq] at he
        have hq : q = false := hst
        rw [hq] at hc
        rw [← he.1]
        simpa using hc
      | cons x a =>
        simp only [List.cons_append, List.cons.injEq] at he
        obtain ⟨rfl, he⟩ := he
        exact h2 a c b he hst
    · have hq : q = false := by
        cases q with
        | false => rfl
        | true => simp at hc
      have hd : isSp d = true ∨ d = ',' := by
        rw [hq] at hc
        by_cases h1 : isSp d = true
        · exact .inl h1
        · right; simpa [h1] using hc
      refine ⟨[], d :: l, rfl, ?_, .inr ⟨hq, ?_⟩⟩
      · intro a c b h; simp at h
      · rcases hd with hd | hd <;> simp [headSp, hd]

/-- The token found by the scan, for a line that does not begin with white space. -/
theorem scan_iff (l : Str) (hne : l ≠ []) (hsp : headSp l = false) :
    (∀ tok r, IsToken l tok r →
      (scanTok false l).2 = false ∧
      (if (scanTok false l).1 = [] ∧ l.head? = some ',' then [','] else (scanTok false l).1) = tok) ∧
    ((scanTok false l).2 = false → ∃ tok r, IsToken l tok r) := by
  constructor
  · rintro tok r ⟨h1, h2 | ⟨h2, h3, h4, h5⟩⟩
    · subst h2
      subst h1
      simp [scanTok]
    · have hs := scanTok_append tok r false
        (fun a c b he hst => h3 a c b he ((evenQuotes_iff a).2 hst))
        (by
          rcases h5 with h5 | h5 | h5
          · exact .inl h5
          · exact .inr ⟨(evenQuotes_iff tok).1 h4, .inl h5⟩
          · exact .inr ⟨(evenQuotes_iff tok).1 h4, .inr h5⟩)
      rw [← h1] at hs
      rw [hs]
      exact ⟨(evenQuotes_iff tok).1 h4, if_neg (by simp [h2])⟩
  · intro hfin
    obtain ⟨t, r, h1, h2, h3⟩ := scanTok_exists l false
    have hs := scanTok_append t r false h2 h3
    rw [← h1] at hs
    rw [hs] at hfin
    by_cases ht : t = []
    · subst ht
      rw [List.nil_append] at h1
      subst h1
      rcases h3 with h3 | ⟨_, h3 | h3⟩
      · exact absurd h3 hne
      · rw [hsp] at h3; cases h3
      · cases l with
        | nil => exact absurd rfl hne
        | cons c l =>
          have : c = ',' := by simpa using h3
          subst this
          exact ⟨[','], l, rfl, .inl rfl⟩
    · refine ⟨t, r, h1, .inr ⟨ht, fun a c b he hst => h2 a c b he ((evenQuotes_iff a).1 hst),
        (evenQuotes_iff t).2 hfin, ?_⟩⟩
      rcases h3 with h3 | ⟨_, h3 | h3⟩
      · exact .inl h3
      · exact .inr (.inl h3)
      · exact .inr (.inr h3)

theorem peekToken_next {s : InSt} {line : Str} {lines : List Str} (hp : Pending s line lines)
    {tok r : Str} (ht : IsToken line tok r) :
    peekToken s = .ok (some tok, { s with rest := line, file := unlines lines }) := by
  obtain ⟨h1, h2⟩ := pending_head hp
  obtain ⟨h3, h4⟩ := (scan_iff line h1 h2).1 tok r ht
  unfold peekToken
  rw [removeWhitespace_pending s line lines hp]
  dsimp only
  rw [h3, h4]
  rfl

/-- **C20 (tokens).** The next token is the one described by the specification, on the current line or
on the next line with content; reading it leaves exactly what follows. If the text has no such token
(unpaired quotes) the program stops; at the end of the input the read fails. -/
theorem C20_next_token (s : InSt) :
    (∀ tok s', NextTok s tok s' → getToken s = .ok (some tok, s')) ∧
    (∀ line lines, Pending s line lines → (¬ ∃ tok r, IsToken line tok r) → getToken s = .exit) ∧
    (AtEnd s → getToken s = .ok (none, { s with rest := [], file := [] })) := by
  refine ⟨?_, ?_, ?_⟩
  · rintro tok s' ⟨line, lines, r, hp, ht, rfl⟩
    unfold getToken
    rw [peekToken_next hp ht]
    dsimp only [InOut.bind]
    have : line.drop tok.length = r := by rw [ht.1, List.drop_left]
    rw [this]
  · intro line lines hp hno
    obtain ⟨h1, h2⟩ := pending_head hp
    have h3 : (scanTok false line).2 = true := by
      by_contra hb
      exact hno ((scan_iff line h1 h2).2 (by simpa using hb))
    unfold getToken peekToken
    rw [removeWhitespace_pending s line lines hp]
    dsimp only
    rw [h3]
    rfl
  · intro he
    unfold getToken peekToken
    rw [removeWhitespace_end s he]
    rfl

/-- **C20 (labels).** A label is found exactly if the line begins with the words of the label,
separated by any white space, and the last word is complete. -/
theorem C20_label_iff {key : Str} {w : Str} {ws : List Str} (hkey : Words key (w :: ws))
    (line out : Str) : containsWordList key line = some out ↔
      ∃ r, Reads (w :: ws) line r ∧ KeyEnd (w :: ws) r ∧ out = skipWs r :=
  containsWordList_iff hkey line out

/-! ### Reading values -/

/-- The command-line overrides, `-p key value key value ...`. -/
def overrides (pairs : List (Str × Str)) : List Str := pairs.flatMap fun p => [p.1, p.2]

theorem scanPairs_none (key : Str) (pairs : List (Str × Str)) (h : ∀ p ∈ pairs, p.1 ≠ key) :
    scanPairs key (overrides pairs) = none := by
  induction pairs with
  | nil => rfl
  | cons p pairs ih =>
    have : overrides (p :: pairs) = p.1 :: p.2 :: overrides pairs := rfl
    rw [this]
    unfold scanPairs
    rw [if_neg (h p List.mem_cons_self), ih fun q hq => h q (List.mem_cons_of_mem _ hq)]
    rfl

theorem scanPairs_some (key v : Str) (pre post : List (Str × Str)) (h : ∀ p ∈ pre, p.1 ≠ key) :
    scanPairs key (overrides (pre ++ (key, v) :: post)) =
      some (overrides (pre ++ (usedFlag, v) :: post), some v) := by
  induction pre with
  | nil =>
    have : overrides ([] ++ (key, v) :: post) = key :: v :: overrides post := rfl
    rw [this]
    unfold scanPairs
    rw [if_pos rfl]
    rfl
  | cons p pre ih =>
    have : overrides (p :: pre ++ (key, v) :: post) =
      p.1 :: p.2 :: overrides (pre ++ (key, v) :: post) := rfl
    rw [this]
    unfold scanPairs
    rw [if_neg (h p List.mem_cons_self), ih fun q hq => h q (List.mem_cons_of_mem _ hq)]
    rfl

/-- Not one of the overridden keys. -/
def NotOverridden (s : InSt) (key : Str) : Prop :=
  ∃ pairs, s.cmdp = overrides pairs ∧ ∀ p ∈ pairs, p.1 ≠ key

theorem scanCmdline_none {s : InSt} {key : Str} (h : NotOverridden s key) :
    scanCmdline key s = .ok s := by
  obtain ⟨pairs, h1, h2⟩ := h
  unfold scanCmdline
  rw [h1, scanPairs_none key pairs h2]

theorem words_ne_nil {key w : Str} {ws : List Str} (h : Words key (w :: ws)) : key ≠ [] := by
  have := words_skipWs h
  obtain ⟨r, hr, _⟩ := this
  rintro rfl
  have hw := words_isWord h w List.mem_cons_self
  have : w ++ r = [] := hr.symm
  exact hw.1 (List.append_eq_nil_iff.1 this).1

theorem handleKey_found {key w : Str} {ws : List Str} (hkey : Words key (w :: ws)) {s : InSt}
    {line : Str} {lines : List Str} (hp : Pending s line lines) {r : Str}
    (hr : Reads (w :: ws) line r) (he : KeyEnd (w :: ws) r) :
    handleKey key s =
      (scanCmdline key { s with rest := skipWs r, file := unlines lines }).bind
        fun s => .ok (true, s) := by
  unfold handleKey
  rw [removeWhitespace_pending s line lines hp, if_neg (words_ne_nil hkey),
    (containsWordList_iff hkey line (skipWs r)).2 ⟨r, hr, he, rfl⟩]

theorem handleKey_missing {key w : Str} {ws : List Str} (hkey : Words key (w :: ws)) {s : InSt}
    {line : Str} {lines : List Str} (hp : Pending s line lines)
    (hno : ¬ ∃ r, Reads (w :: ws) line r ∧ KeyEnd (w :: ws) r) :
    handleKey key s = .ok (false, { s with rest := line, file := unlines lines }) := by
  unfold handleKey
  rw [removeWhitespace_pending s line lines hp, if_neg (words_ne_nil hkey)]
  have : containsWordList key line = none := by
    cases h : containsWordList key line with
    | none => rfl
    | some out =>
      obtain ⟨r, h1, h2, _⟩ := (containsWordList_iff hkey line out).1 h
      exact absurd ⟨r, h1, h2⟩ hno
  rw [this]

theorem notOverridden_rest {s : InSt} {key : Str} (h : NotOverridden s key) (a b : Str) :
    NotOverridden { s with rest := a, file := b } key := h

/-- **C20 (a value).** If the pending line begins with the label, the read returns the next token
behind the label, converted to the type asked for, and leaves what follows it. -/
theorem C20_get_value {β : Type} (isValue : Str → Option β) {key w : Str} {ws : List Str}
    (hkey : Words key (w :: ws)) {s : InSt} (hcmd : NotOverridden s key) {line : Str}
    {lines : List Str} (hp : Pending s line lines) {r : Str} (hr : Reads (w :: ws) line r)
    (he : KeyEnd (w :: ws) r) {tok : Str} {s' : InSt}
    (ht : NextTok { s with rest := r, file := unlines lines } tok s') :
    getValue isValue key s = .ok (isValue tok, s') := by
  unfold getValue
  rw [handleKey_found hkey hp hr he, scanCmdline_none (notOverridden_rest hcmd _ _)]
  dsimp only [InOut.bind]
  rw [if_pos rfl]
  have ht' : NextTok { s with rest := skipWs r, file := unlines lines } tok s' := by
    obtain ⟨l, ls, q, h1, h2, h3⟩ := ht
    refine ⟨l, ls, q, ?_, h2, h3⟩
    rcases h1 with ⟨a1, a2, a3⟩ | ⟨a1, a2⟩
    · exact .inl ⟨a1, by rw [a2]; exact (skipWs_idem r).symm, a3⟩
    · refine .inr ⟨?_, a2⟩
      show AllSp (skipWs r)
      rw [skipWs_allSp r a1]
      intro c hc; cases hc
  rw [(C20_next_token _).1 tok s' ht']
  rfl

/-- **C20 (wrong label).** If the pending line does not begin with the label, the read fails and nothing
of the line is consumed. -/
theorem C20_wrong_label {β : Type} (isValue : Str → Option β) {key w : Str} {ws : List Str}
    (hkey : Words key (w :: ws)) {s : InSt} {line : Str} {lines : List Str}
    (hp : Pending s line lines) (hno : ¬ ∃ r, Reads (w :: ws) line r ∧ KeyEnd (w :: ws) r) :
    getValue isValue key s = .ok (none, { s with rest := line, file := unlines lines }) := by
  unfold getValue
  rw [handleKey_missing hkey hp hno]
  rfl

/-- **C20 (override).** A value given on the command line for a key replaces the value of the line in
the file, once. -/
theorem C20_override {β : Type} (isValue : Str → Option β) {key w : Str} {ws : List Str}
    (hkey : Words key (w :: ws)) {s : InSt} {pre post : List (Str × Str)} {v : Str}
    (hcmd : s.cmdp = overrides (pre ++ (key, v) :: post)) (hpre : ∀ p ∈ pre, p.1 ≠ key) {line : Str}
    {lines : List Str} (hp : Pending s line lines) {r : Str} (hr : Reads (w :: ws) line r)
    (he : KeyEnd (w :: ws) r) {tok rest : Str} (hv : headSp v = false) (ht : IsToken v tok rest)
    (hvne : v ≠ []) :
    getValue isValue key s = .ok (isValue tok,
      { file := unlines lines, rest := rest, cmdp := overrides (pre ++ (usedFlag, v) :: post) }) := by
  unfold getValue
  rw [handleKey_found hkey hp hr he]
  unfold scanCmdline
  dsimp only
  rw [hcmd, scanPairs_some key v pre post hpre]
  dsimp only [InOut.bind]
  rw [if_pos rfl]
  have hn : NextTok (⟨unlines lines, ' ' :: v, overrides (pre ++ (usedFlag, v) :: post)⟩ : InSt) tok
      ⟨unlines lines, rest, overrides (pre ++ (usedFlag, v) :: post)⟩ := by
    refine ⟨v, lines, rest, .inl ⟨hvne, ?_, rfl, pending_lines hp⟩, ht, rfl⟩
    show v = skipWs ([' '] ++ v)
    rw [skipWs_append [' '] v (by intro c hc; rw [List.mem_singleton.1 hc]; rfl), skipWs_of_not v hv]
  rw [(C20_next_token _).1 tok _ hn]
  rfl

/-- A key given on the command line without a value ends the program by an exception when it is read. -/
theorem C20_override_without_value (key : Str) (pre : List (Str × Str)) (hpre : ∀ p ∈ pre, p.1 ≠ key)
    (s : InSt) (hcmd : s.cmdp = overrides pre ++ [key]) : scanCmdline key s = .throw := by
  have h : scanPairs key (overrides pre ++ [key]) = some (overrides pre ++ [usedFlag], none) := by
    clear hcmd
    induction pre with
    | nil => simp [overrides, scanPairs]
    | cons p pre ih =>
      have he : overrides (p :: pre) ++ [key] = p.1 :: p.2 :: (overrides pre ++ [key]) := rfl
      rw [he]
      unfold scanPairs
      rw [if_neg (hpre p List.mem_cons_self), ih fun q hq => hpre q (List.mem_cons_of_mem _ hq)]
      rfl
  unfold scanCmdline
  rw [hcmd, h]

/-! ### Lists -/

theorem matchToken_yes {s s' : InSt} {tok : Str} (h : NextTok s tok s') :
    matchToken tok s = .ok (true, s') := by
  obtain ⟨line, lines, r, hp, ht, rfl⟩ := h
  unfold matchToken
  rw [peekToken_next hp ht]
  dsimp only [InOut.bind]
  have : line.drop tok.length = r := by rw [ht.1, List.drop_left]
  rw [if_pos rfl, this]

/-- The next token is not a comma, or there is none; `s'` is the state after looking for it. -/
def NoComma (s s' : InSt) : Prop :=
  (AtEnd s ∧ s' = { s with rest := [], file := [] }) ∨
  ∃ line lines tok r, Pending s line lines ∧ IsToken line tok r ∧ tok ≠ [','] ∧
    s' = { s with rest := line, file := unlines lines }

theorem matchToken_comma_no {s s' : InSt} (h : NoComma s s') : matchToken [','] s = .ok (false, s') := by
  rcases h with ⟨h, rfl⟩ | ⟨line, lines, tok, r, hp, ht, hne, rfl⟩
  · unfold matchToken peekToken
    rw [removeWhitespace_end s h]
    rfl
  · unfold matchToken
    rw [peekToken_next hp ht]
    dsimp only [InOut.bind]
    rw [if_neg (by simpa using hne)]

/-- A comma separated list of tokens, possibly over several lines; `s'` is the state after it. -/
inductive TokList : InSt → List Str → InSt → Prop
  | last {s tok s1} : NextTok s tok s1 → TokList s [tok] s1
  | more {s tok s1 s2 toks s3} : NextTok s tok s1 → NextTok s1 [','] s2 → TokList s2 toks s3 →
      TokList s (tok :: toks) s3

theorem nextTok_cmdp {s s' : InSt} {tok : Str} (h : NextTok s tok s') : s'.cmdp = s.cmdp := by
  obtain ⟨_, _, _, _, _, rfl⟩ := h; rfl

theorem pending_of_removed {s : InSt} {line : Str} {lines : List Str} (h : Pending s line lines) :
    Pending { s with rest := line, file := unlines lines } line lines := by
  obtain ⟨h1, h2⟩ := pending_head h
  exact .inl ⟨h1, (skipWs_of_not line h2).symm, rfl, pending_lines h⟩

theorem getValue_empty {β : Type} (isValue : Str → Option β) {s s' : InSt} {tok : Str}
    (hcmd : NotOverridden s []) (h : NextTok s tok s') :
    getValue isValue [] s = .ok (isValue tok, s') := by
  obtain ⟨line, lines, r, hp, ht, rfl⟩ := h
  unfold getValue handleKey
  rw [removeWhitespace_pending s line lines hp, if_pos rfl,
    scanCmdline_none (notOverridden_rest hcmd _ _)]
  dsimp only [InOut.bind]
  rw [if_pos rfl, (C20_next_token _).1 tok _ ⟨line, lines, r, pending_of_removed hp, ht, rfl⟩]
  rfl

/-- Text not yet read. -/
def unread (s : InSt) : ℕ := s.rest.length + s.file.length

theorem nextTok_unread {s s' : InSt} {tok : Str} (h : NextTok s tok s') : unread s' < unread s := by
  obtain ⟨line, lines, r, hp, ht, rfl⟩ := h
  have htne : 0 < tok.length := by
    rcases ht.2 with h | ⟨h, _⟩
    · rw [h]; simp
    · exact List.length_pos_iff.2 h
  have hl : line.length = tok.length + r.length := by rw [ht.1, List.length_append]
  unfold unread
  dsimp only
  rcases hp with ⟨_, h2, h3, _⟩ | ⟨_, pre, l, h2, _, _, h5, h6⟩
  · have := skipWs_length s.rest
    rw [← h2] at this
    rw [h3]; omega
  · have h7 : line.length ≤ l.length := by
      rw [h5]; unfold content
      exact Nat.le_trans (List.takeWhile_sublist _).length_le (skipWs_length l)
    have h8 : ∀ pre : List Str, l.length + (unlines lines).length ≤ (unlines (pre ++ l :: lines)).length := by
      intro pre
      induction pre with
      | nil =>
        rw [List.nil_append]
        by_cases hls : lines = []
        · subst hls; exact Nat.le_refl _
        · rw [unlines_cons l lines hls, List.length_append, List.length_cons]; omega
      | cons p pre ih =>
        rw [List.cons_append, unlines_cons _ _ (by simp), List.length_append, List.length_cons]; omega
    have h9 := h8 pre
    rw [h2]; omega

theorem getListMore_spec {β : Type} (isValue : Str → Option β) {toks : List Str} : ∀ {s s1 s2 s3 : InSt}
    {vals : List β} (fuel : ℕ), unread s1 < fuel → NotOverridden s1 [] → NextTok s1 [','] s →
    TokList s toks s2 → NoComma s2 s3 → toks.map isValue = vals.map some →
    getListMore isValue fuel s1 = .ok (some vals, s3) := by
  induction toks with
  | nil => intro s s1 s2 s3 vals fuel _ _ _ h; cases h
  | cons tok toks ih =>
    intro s s1 s2 s3 vals fuel hfuel hcmd hc hl hend hv
    obtain ⟨fuel, rfl⟩ : ∃ f, fuel = f + 1 := ⟨fuel - 1, by omega⟩
    cases vals with
    | nil => cases hv
    | cons v vals =>
      simp only [List.map_cons, List.cons.injEq] at hv
      have hcmd' : NotOverridden s [] := by
        obtain ⟨pairs, h1, h2⟩ := hcmd
        exact ⟨pairs, by rw [nextTok_cmdp hc, h1], h2⟩
      unfold getListMore
      rw [matchToken_yes hc]
      dsimp only [InOut.bind]
      rw [if_pos rfl]
      have hlt := nextTok_unread hc
      cases hl with
      | last ht =>
        rw [getValue_empty isValue hcmd' ht]
        dsimp only
        rw [hv.1]
        dsimp only
        obtain ⟨fuel, rfl⟩ : ∃ f, fuel = f + 1 := ⟨fuel - 1, by omega⟩
        have hvn : vals = [] := by simpa using hv.2
        unfold getListMore
        rw [matchToken_comma_no hend, hvn]
        rfl
      | more ht hc2 hl =>
        rename_i s4 s5
        rw [getValue_empty isValue hcmd' ht]
        dsimp only
        rw [hv.1]
        dsimp only
        have hlt2 := nextTok_unread ht
        have hcmd4 : NotOverridden s4 [] := by
          obtain ⟨pairs, h1, h2⟩ := hcmd'
          exact ⟨pairs, by rw [nextTok_cmdp ht, h1], h2⟩
        rw [ih fuel (by omega) hcmd4 hc2 hl hend hv.2]
        rfl

/-- **C20 (lists).** A read of a list returns all items of a comma separated list, which may continue
over several lines, and stops where no comma follows. -/
theorem C20_get_list {β : Type} (isValue : Str → Option β) {key w : Str} {ws : List Str}
    (hkey : Words key (w :: ws)) {s : InSt} (hcmd : NotOverridden s key) (hcmd0 : NotOverridden s [])
    {line : Str} {lines : List Str} (hp : Pending s line lines) {r : Str}
    (hr : Reads (w :: ws) line r) (he : KeyEnd (w :: ws) r) {toks : List Str} {s2 s3 : InSt}
    (hl : TokList { s with rest := r, file := unlines lines } toks s2) (hend : NoComma s2 s3)
    {vals : List β} (hv : toks.map isValue = vals.map some) :
    getList isValue key s = .ok (some vals, s3) := by
  unfold getList
  cases hl with
  | last ht =>
    rename_i tok
    rw [C20_get_value isValue hkey hcmd hp hr he ht]
    dsimp only [InOut.bind]
    cases vals with
    | nil => cases hv
    | cons v vals =>
      simp only [List.map_cons, List.cons.injEq] at hv
      rw [hv.1]
      dsimp only
      have hvn : vals = [] := by simpa using hv.2
      unfold getListMore
      rw [matchToken_comma_no hend, hvn]
      rfl
  | more ht hc hl =>
    rename_i tok s4 s5 toks
    rw [C20_get_value isValue hkey hcmd hp hr he ht]
    dsimp only [InOut.bind]
    cases vals with
    | nil => cases hv
    | cons v vals =>
      simp only [List.map_cons, List.cons.injEq] at hv
      rw [hv.1]
      dsimp only
      have hcmd4 : NotOverridden s4 [] := by
        obtain ⟨pairs, h1, h2⟩ := hcmd0
        exact ⟨pairs, by rw [nextTok_cmdp ht]; exact h1, h2⟩
      rw [getListMore_spec isValue _ (by unfold unread; omega) hcmd4 hc hl hend hv.2]
      rfl

theorem comma_words : Words [','] [[',']] :=
  Words.cons [] [','] [] [] (by intro c hc; cases hc) ⟨by simp, by decide⟩ (.inl rfl)
    (Words.nil [] (by intro c hc; cases hc))

theorem getMore_spec {β : Type} (isValue : Str → Option β) {toks : List Str} : ∀ {s s1 s2 : InSt}
    {vals : List β}, NotOverridden s1 [','] → NextTok s1 [','] s →
    TokList s toks s2 → toks.map isValue = vals.map some →
    getMore isValue toks.length s1 = .ok (some vals, s2) := by
  induction toks with
  | nil => intro s s1 s2 vals _ _ h; cases h
  | cons tok toks ih =>
    intro s s1 s2 vals hcmd hc hl hv
    cases vals with
    | nil => cases hv
    | cons v vals =>
      simp only [List.map_cons, List.cons.injEq] at hv
      obtain ⟨line, lines, r, hp, ht1, rfl⟩ := hc
      have hline : Reads [[',']] line r := by
        have := Reads.last [] [','] r (by intro c hc; cases hc)
        rwa [List.nil_append, ← ht1.1] at this
      have hke : KeyEnd [[',']] r := .inr (.inr (.inr rfl))
      rw [List.length_cons]
      unfold getMore
      cases hl with
      | last ht =>
        rw [C20_get_value isValue comma_words hcmd hp hline hke ht]
        have hvn : vals = [] := by simpa using hv.2
        dsimp only [InOut.bind]
        rw [hv.1, hvn]
        rfl
      | more ht hc2 hl =>
        rename_i s4 s5
        rw [C20_get_value isValue comma_words hcmd hp hline hke ht]
        dsimp only [InOut.bind]
        rw [hv.1]
        dsimp only
        have hcmd4 : NotOverridden s4 [','] := by
          obtain ⟨pairs, h1, h2⟩ := hcmd
          exact ⟨pairs, by rw [nextTok_cmdp ht]; exact h1, h2⟩
        rw [ih hcmd4 hc2 hl hv.2]
        rfl

/-- **C20 (vectors).** A read of a vector of `n` components returns the `n` items of a comma separated
list and leaves what follows. -/
theorem C20_get_vector {β : Type} (isValue : Str → Option β) {key w : Str} {ws : List Str}
    (hkey : Words key (w :: ws)) {s : InSt} (hcmd : NotOverridden s key)
    (hcmd0 : NotOverridden s [',']) {line : Str} {lines : List Str} (hp : Pending s line lines) {r : Str}
    (hr : Reads (w :: ws) line r) (he : KeyEnd (w :: ws) r) {toks : List Str} {s2 : InSt}
    (hl : TokList { s with rest := r, file := unlines lines } toks s2)
    {vals : List β} (hv : toks.map isValue = vals.map some) :
    getVector isValue toks.length key s = .ok (some vals, s2) := by
  unfold getVector
  cases vals with
  | nil => cases hl <;> cases hv
  | cons v vals =>
    cases hl with
    | last ht =>
      rw [C20_get_value isValue hkey hcmd hp hr he ht]
      simp only [List.map_cons, List.cons.injEq] at hv
      have hvn : vals = [] := by simpa using hv.2
      dsimp only [InOut.bind]
      rw [hv.1, hvn]
      rfl
    | more ht hc hl =>
      rename_i tok s4 s5 toks
      rw [C20_get_value isValue hkey hcmd hp hr he ht]
      simp only [List.map_cons, List.cons.injEq] at hv
      dsimp only [InOut.bind]
      rw [hv.1]
      dsimp only [List.length_cons]
      have hcmd4 : NotOverridden s4 [','] := by
        obtain ⟨pairs, h1, h2⟩ := hcmd0
        exact ⟨pairs, by rw [nextTok_cmdp ht]; exact h1, h2⟩
      rw [Nat.add_sub_cancel, getMore_spec isValue hcmd4 hc hl hv.2]
      rfl

/-! ### Numbers -/

theorem digits_isDigit (n : ℕ) : ∀ c ∈ Nat.toDigits 10 n, c.isDigit = true := fun _ hc =>
  Nat.isDigit_of_mem_toDigits (by decide) (by decide) hc

theorem takeWhile_digits (n : ℕ) (junk : Str) (hj : ∀ c, junk.head? = some c → c.isDigit = false) :
    (Nat.toDigits 10 n ++ junk).takeWhile Char.isDigit = Nat.toDigits 10 n := by
  rw [List.takeWhile_append_of_pos (digits_isDigit n)]
  cases junk with
  | nil => simp
  | cons c j =>
    have := hj c rfl
    simp [this]

/-- The conversion of a decimal number followed by anything that does not begin with a digit. -/
theorem isValueInt_decimal (lo hi z : ℤ) (junk : Str)
    (hj : ∀ c, junk.head? = some c → c.isDigit = false) (hz : lo ≤ z ∧ z ≤ hi) :
    isValueInt lo hi (decimal z ++ junk) = some z := by
  have hne : Nat.toDigits 10 z.natAbs ≠ [] := Nat.toDigits_ne_nil
  have hval : digitsVal (Nat.toDigits 10 z.natAbs) = z.natAbs := by
    have := Nat.ofDigitChars_ten_toDigits (n := z.natAbs)
    rw [Nat.ofDigitChars_eq_foldl] at this
    exact this
  unfold decimal
  by_cases hneg : z < 0
  · rw [if_pos hneg]
    unfold isValueInt
    simp only [List.cons_append, List.head?_cons, true_or, if_true, List.drop_succ_cons, List.drop_zero]
    rw [takeWhile_digits _ _ hj, if_neg hne, hval]
    have : -(z.natAbs : ℤ) = z := by omega
    rw [this, if_pos hz]
  · rw [if_neg hneg]
    have hhead : ∀ c, (Nat.toDigits 10 z.natAbs ++ junk).head? = some c → c.isDigit = true := by
      intro c hc
      cases hd : Nat.toDigits 10 z.natAbs with
      | nil => exact absurd hd hne
      | cons d ds =>
        rw [hd] at hc
        simp only [List.cons_append, List.head?_cons, Option.some.injEq] at hc
        rw [← hc]
        exact digits_isDigit z.natAbs d (by rw [hd]; exact List.mem_cons_self)
    have h1 : ¬ (Nat.toDigits 10 z.natAbs ++ junk).head? = some '-' := by
      intro h; have := hhead _ h; revert this; decide
    have h2 : ¬ (Nat.toDigits 10 z.natAbs ++ junk).head? = some '+' := by
      intro h; have := hhead _ h; revert this; decide
    unfold isValueInt
    simp only [h1, h2, or_self, if_false]
    rw [takeWhile_digits _ _ hj, if_neg hne, hval]
    have : (z.natAbs : ℤ) = z := by omega
    rw [this, if_pos hz]

/-- **C20 (integers).** The decimal representation of an integer in the range of the type is read as this
integer; a token that does not begin with an (optionally signed) digit is rejected. Missing: rejection
of tokens with trailing characters, see `C20_trailing_characters_accepted`. -/
theorem C20_integer_partial (lo hi : ℤ) :
    (∀ z, lo ≤ z → z ≤ hi → isValueInt lo hi (decimal z) = some z) ∧
    (∀ c r, c.isDigit = false → c ≠ '-' → c ≠ '+' → isValueInt lo hi (c :: r) = none) := by
  constructor
  · intro z h1 h2
    have := isValueInt_decimal lo hi z [] (by intro c hc; cases hc) ⟨h1, h2⟩
    rwa [List.append_nil] at this
  · intro c r h1 h2 h3
    unfold isValueInt
    simp [h1, h2, h3]

/-- **C20 is false for malformed numbers.** Characters behind an integer are ignored: `3.5` and `3abc`
are accepted as the integer 3. -/
theorem C20_trailing_characters_accepted (lo hi z : ℤ) (hz : lo ≤ z ∧ z ≤ hi) :
    isValueInt lo hi (decimal z ++ ".5".toList) = some z ∧
    isValueInt lo hi (decimal z ++ "abc".toList) = some z :=
  ⟨isValueInt_decimal lo hi z _ (by intro c hc; simp at hc; rw [← hc]; rfl) hz,
    isValueInt_decimal lo hi z _ (by intro c hc; simp at hc; rw [← hc]; rfl) hz⟩

/-! ### Complex numbers -/

/-- **C20 (complex numbers).** Five tokens `(`, real part, `,`, imaginary part, `)` are read as a complex
number. Missing: the documented form, see `C20_documented_complex_rejected`. -/
theorem C20_get_complex_partial {β : Type} (isValue : Str → Option β) {key w : Str} {ws : List Str}
    (hkey : Words key (w :: ws)) {s : InSt} (hcmd : NotOverridden s key) {line : Str}
    {lines : List Str} (hp : Pending s line lines) {r : Str} (hr : Reads (w :: ws) line r)
    (he : KeyEnd (w :: ws) r) {tre tim : Str} {s1 s2 s3 s4 s5 : InSt}
    (h1 : NextTok { s with rest := skipWs r, file := unlines lines } ['('] s1) (h2 : NextTok s1 tre s2)
    (h3 : NextTok s2 [','] s3) (h4 : NextTok s3 tim s4) (h5 : NextTok s4 [')'] s5) {re im : β}
    (hre : isValue tre = some re) (him : isValue tim = some im) :
    getComplex isValue key s = .ok (some (re, im), s5) := by
  unfold getComplex
  rw [handleKey_found hkey hp hr he, scanCmdline_none (notOverridden_rest hcmd _ _)]
  dsimp only [InOut.bind]
  rw [if_pos rfl, matchToken_yes h1]
  dsimp only
  rw [if_pos rfl, (C20_next_token _).1 tre _ h2]
  dsimp only [Option.bind_some]
  rw [hre]
  dsimp only
  rw [matchToken_yes h3]
  dsimp only
  rw [if_pos rfl, (C20_next_token _).1 tim _ h4]
  dsimp only [Option.bind_some]
  rw [him]
  dsimp only
  rw [matchToken_yes h5]
  rfl

/-- **C20 is false for complex numbers as documented.** A value `(re, im)` with the real part directly
behind the parenthesis is rejected, whatever follows, for every number type: the first token is `(re`,
not `(`. -/
theorem C20_documented_complex_rejected {β : Type} (isValue : Str → Option β) {key w : Str}
    {ws : List Str} (hkey : Words key (w :: ws)) {s : InSt} (hcmd : NotOverridden s key) {line : Str}
    {lines : List Str} (hp : Pending s line lines) {r : Str} (hr : Reads (w :: ws) line r)
    (he : KeyEnd (w :: ws) r) {c : Char} {more : Str} (hc : isSp c = false ∧ c ≠ ',' ∧ c ≠ '"')
    (hv : skipWs r = '(' :: c :: more) :
    ∃ o, getComplex isValue key s = o ∧ (o = .exit ∨ ∃ s', o = .ok (none, s')) := by
  refine ⟨_, rfl, ?_⟩
  unfold getComplex
  rw [handleKey_found hkey hp hr he, scanCmdline_none (notOverridden_rest hcmd _ _)]
  dsimp only [InOut.bind]
  rw [if_pos rfl]
  have hsk : skipWs (skipWs r) = '(' :: c :: more := by rw [skipWs_idem, hv]
  have hs : ∃ t q, scanTok false ('(' :: c :: more) = ('(' :: c :: t, q) := by
    refine ⟨(scanTok false more).1, (scanTok false more).2, ?_⟩
    simp [scanTok, hc, show isSp '(' = false from rfl]
  obtain ⟨t, q, hs⟩ := hs
  unfold matchToken peekToken removeWhitespace
  rw [hsk]
  dsimp only
  rw [hs]
  cases q with
  | true => exact .inl rfl
  | false => exact .inr ⟨_, rfl⟩

/-! ### Items -/

/-- An item of `get_item` matches: `%s` always, `%f` and `%i` if the token is such a number, otherwise
the words of the item begin the text. -/
def ItemMatches (isF isI : Str → Bool) (tok text it : Str) : Prop :=
  it = "%s".toList ∨ (it = "%f".toList ∧ isF tok = true) ∨ (it = "%i".toList ∧ isI tok = true) ∨
    ∃ w ws r, Words it (w :: ws) ∧ Reads (w :: ws) text r ∧ KeyEnd (w :: ws) r

theorem itemLoop_spec (isF isI : Str → Bool) (tok : Str) (items : List Str)
    (hit : ∀ it ∈ items, ∃ w ws, Words it (w :: ws)) : ∀ (i : ℕ) (s : InSt),
    (∀ k, (itemLoop isF isI tok items i s).1 = some k →
      i ≤ k ∧ (∃ it, items[k - i]? = some it ∧ ItemMatches isF isI tok s.rest it) ∧
      ∀ j it, j < k - i → items[j]? = some it → ¬ ItemMatches isF isI tok s.rest it) ∧
    ((itemLoop isF isI tok items i s).1 = none →
      (∀ it ∈ items, ¬ ItemMatches isF isI tok s.rest it) ∧ (itemLoop isF isI tok items i s).2 = s) := by
  induction items with
  | nil =>
    intro i s
    exact ⟨fun k h => (by simp [itemLoop] at h), fun _ => ⟨fun it h => (by simp at h), rfl⟩⟩
  | cons it items ih =>
    intro i s
    have hrec := ih (fun x hx => hit x (List.mem_cons_of_mem _ hx)) (i + 1) s
    obtain ⟨w, ws, hw⟩ := hit it List.mem_cons_self
    -- is the first item matched?
    by_cases hm : ItemMatches isF isI tok s.rest it
    · have hres : ∃ s', itemLoop isF isI tok (it :: items) i s = (some i, s') := by
        unfold itemLoop
        by_cases h1 : it = "%s".toList
        · exact ⟨s, by rw [if_pos h1]⟩
        · rw [if_neg h1]
          by_cases h2 : it = "%f".toList ∧ isF tok = true
          · exact ⟨s, by rw [if_pos h2]⟩
          · rw [if_neg h2]
            by_cases h3 : it = "%i".toList ∧ isI tok = true
            · exact ⟨s, by rw [if_pos h3]⟩
            · rw [if_neg h3]
              rcases hm with h | h | h | ⟨v, vs, r, hv1, hv2, hv3⟩
              · exact absurd h h1
              · exact absurd h h2
              · exact absurd h h3
              · rw [(containsWordList_iff hv1 s.rest (skipWs r)).2 ⟨r, hv2, hv3, rfl⟩]
                exact ⟨_, rfl⟩
      obtain ⟨s', hs'⟩ := hres
      rw [hs']
      refine ⟨fun k hk => ?_, fun h => by cases h⟩
      have : i = k := by simpa using hk
      subst this
      refine ⟨Nat.le_refl _, ⟨it, by simp, hm⟩, ?_⟩
      intro j x hj
      omega
    · have h1 : ¬ it = "%s".toList := fun h => hm (.inl h)
      have h2 : ¬ (it = "%f".toList ∧ isF tok = true) := fun h => hm (.inr (.inl h))
      have h3 : ¬ (it = "%i".toList ∧ isI tok = true) := fun h => hm (.inr (.inr (.inl h)))
      have h4 : containsWordList it s.rest = none := by
        cases h : containsWordList it s.rest with
        | none => rfl
        | some out =>
          obtain ⟨r, a1, a2, _⟩ := (containsWordList_iff hw s.rest out).1 h
          exact absurd (.inr (.inr (.inr ⟨w, ws, r, hw, a1, a2⟩))) hm
      have hstep : itemLoop isF isI tok (it :: items) i s = itemLoop isF isI tok items (i + 1) s := by
        conv_lhs => unfold itemLoop
        rw [if_neg h1, if_neg h2, if_neg h3, h4]
      rw [hstep]
      refine ⟨fun k hk => ?_, fun h => ?_⟩
      · obtain ⟨a1, ⟨x, a2, a3⟩, a4⟩ := hrec.1 k hk
        refine ⟨by omega, ⟨x, ?_, a3⟩, ?_⟩
        · have : k - i = (k - (i + 1)) + 1 := by omega
          rw [this, List.getElem?_cons_succ]; exact a2
        · intro j y hj hy
          cases j with
          | zero =>
            simp only [List.getElem?_cons_zero, Option.some.injEq] at hy
            rw [← hy]; exact hm
          | succ j =>
            rw [List.getElem?_cons_succ] at hy
            exact a4 j y (by omega) hy
      · obtain ⟨a1, a2⟩ := hrec.2 h
        refine ⟨fun x hx => ?_, a2⟩
        rcases List.mem_cons.1 hx with rfl | hx
        · exact hm
        · exact a1 x hx

/-- **C20 (items).** `get_item` returns the index of the first item that matches the text behind the
label, and fails exactly if none does. -/
theorem C20_get_item (isF isI : Str → Bool) {key w : Str} {ws : List Str}
    (hkey : Words key (w :: ws)) (items : List Str) (hit : ∀ it ∈ items, ∃ w ws, Words it (w :: ws))
    {s : InSt} (hcmd : NotOverridden s key) {line : Str} {lines : List Str}
    (hp : Pending s line lines) {r : Str} (hr : Reads (w :: ws) line r) (he : KeyEnd (w :: ws) r)
    {text : Str} {lines' : List Str} {tok r' : Str}
    (hp' : Pending { s with rest := skipWs r, file := unlines lines } text lines')
    (ht : IsToken text tok r') :
    ∃ res s', getItem isF isI key items s = .ok (res, s') ∧
      (∀ k, res = some k → (∃ it, items[k]? = some it ∧ ItemMatches isF isI tok text it) ∧
        ∀ j it, j < k → items[j]? = some it → ¬ ItemMatches isF isI tok text it) ∧
      (res = none → ∀ it ∈ items, ¬ ItemMatches isF isI tok text it) := by
  have hres : getItem isF isI key items s = .ok (itemLoop isF isI tok items 0
      { s with rest := text, file := unlines lines' }) := by
    unfold getItem
    rw [handleKey_found hkey hp hr he, scanCmdline_none (notOverridden_rest hcmd _ _)]
    dsimp only [InOut.bind]
    rw [if_pos rfl, peekToken_next hp' ht]
  have hs := itemLoop_spec isF isI tok items hit 0 { s with rest := text, file := unlines lines' }
  refine ⟨_, _, hres, ?_, ?_⟩
  · intro k hk
    obtain ⟨_, h2, h3⟩ := hs.1 k hk
    exact ⟨h2, h3⟩
  · intro hn
    exact (hs.2 hn).1

/-! ### Concrete cases -/

/-- `number of cats 5 ` with a comment line before and after. -/
example : getValue (isValueInt (-2147483648) 2147483647) "number of cats".toList
    ⟨"# comment\n\n  number  of\tcats   5 # five\n x 1".toList, [], []⟩ =
    .ok (some 5, ⟨" x 1".toList, " ".toList, []⟩) := by decide +kernel

example : getList (isValueInt (-2147483648) 2147483647) "vec".toList
    ⟨"vec  3,4, 5,\n 7 , -8\nnext 2".toList, [], []⟩ =
    .ok (some [3, 4, 5, 7, -8], ⟨[], "next 2".toList, []⟩) := by decide +kernel

/-- The documented example of a complex number. -/
example : getComplex (isValueInt (-2147483648) 2147483647) "complex phase".toList
    ⟨"complex phase   (4, 5)".toList, [], []⟩ = .ok (none, ⟨[], "(4, 5)".toList, []⟩) := by
  decide +kernel

example : getComplex (isValueInt (-2147483648) 2147483647) "complex phase".toList
    ⟨"complex phase   ( 4, 5 )".toList, [], []⟩ = .ok (some (4, 5), ⟨[], [], []⟩) := by
  decide +kernel

/-- A label that is a prefix of a word of the line does not match. -/
example : containsWordList "beta".toList "beta2 5".toList = none ∧
    containsWordList "beta".toList "  beta, 5".toList = some ", 5".toList := by decide +kernel

theorem words_example : Words "a b".toList [['a'], ['b']] :=
  Words.cons [] ['a'] [' ', 'b'] [['b']] (by intro c hc; cases hc) ⟨by simp, by decide⟩ (.inr rfl)
    (Words.cons [' '] ['b'] [] [] (by intro c hc; rw [List.mem_singleton.1 hc]; rfl)
      ⟨by simp, by decide⟩ (.inl rfl) (Words.nil [] (by intro c hc; cases hc)))

example : ∃ r, Reads [['a'], ['b']] "  a \tb 7".toList r ∧ KeyEnd [['a'], ['b']] r :=
  ⟨" 7".toList, Reads.cons [' ', ' '] ['a'] [' ', '\t', 'b', ' ', '7'] ['b'] [] [' ', '7']
    (by intro c hc; revert c; decide) rfl
    (Reads.last [' ', '\t'] ['b'] [' ', '7'] (by intro c hc; revert c; decide)), .inr (.inl rfl)⟩

example : Pending ⟨"#x\n  a b 7\n".toList, [], []⟩ "a b 7".toList [[]] :=
  .inr ⟨(by intro c hc; cases hc), ["#x".toList], "  a b 7".toList, rfl,
    (by unfold AreLines; decide), by decide, rfl, by decide⟩

example : NextTok ⟨[], " 7, 8".toList, []⟩ ['7'] ⟨[], ", 8".toList, []⟩ :=
  ⟨"7, 8".toList, [], ", 8".toList, .inl ⟨by decide, rfl, rfl, by intro l hl; cases hl⟩,
    ⟨rfl, .inr ⟨by decide, by
      intro a c b h _
      cases a with
      | nil =>
        simp only [List.nil_append, List.cons.injEq] at h
        rw [← h.1]; decide
      | cons x a => simp at h, by unfold EvenQuotes; decide, .inr (.inr rfl)⟩⟩, rfl⟩

example : NotOverridden ⟨[], [], ["beta".toList, "2".toList]⟩ "kappa".toList :=
  ⟨[("beta".toList, "2".toList)], rfl, by decide⟩

end Hila
