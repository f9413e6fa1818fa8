import Verif.Lemmas.CmdLine
import Mathlib.Data.List.Nodup

/-!
# C19: command-line flags receive exactly their own values

The arguments are `prog :: args`. The registered flags have the documented form (`-` and a letter,
see `add_flag`); the program name has not.
-/

namespace Hila

/-- The values given to flag `f`: after each occurrence, the arguments up to the next flag. -/
def flagValues (f : Str) : List Str → List Str
  | [] => []
  | a :: r => if a = f then (r.takeWhile fun x => !isFlag x) ++ flagValues f r else flagValues f r

/-- There is an occurrence of `f` with values `v`. -/
def Occurs (f : Str) (v : List Str) (args : List Str) : Prop :=
  ∃ pre post, args = pre ++ f :: (v ++ post) ∧ (∀ a ∈ v, isFlag a = false) ∧
    ∀ b, post.head? = some b → isFlag b = true

/-- No value stands before the first flag. -/
def StartsWithFlag (args : List Str) : Prop := ∀ a, args.head? = some a → isFlag a = true

/-! ### Relation to the recursive functions -/

theorem valsOf_eq (f : Str) (hf : isFlag f = true) (l : List Str) :
    valsOf f false l = flagValues f l ∧ valsOf f true l = headVals l ++ flagValues f l := by
  induction l with
  | nil => exact ⟨rfl, rfl⟩
  | cons a r ih =>
    by_cases ha : a = f
    · subst ha
      simp [valsOf, flagValues, headVals, hf, ih.2]
    · by_cases hfa : isFlag a = true
      · simp [valsOf, flagValues, headVals, ha, hfa, ih.1]
      · simp [valsOf, flagValues, headVals, ha, hfa, ih.1, ih.2]

theorem valsOf_keepOf (f g : Str) (hf : isFlag f = true) (hg : isFlag g = true) (hne : g ≠ f)
    (l : List Str) : (∀ ig, valsOf g ig (keepOf f false l) = valsOf g ig l) ∧
      ∀ x, valsOf g x (keepOf f true l) = valsOf g false l := by
  induction l with
  | nil => exact ⟨fun _ => rfl, fun _ => rfl⟩
  | cons a r ih =>
    by_cases ha : a = f
    · subst ha
      constructor <;> intro x <;> simp [keepOf, valsOf, hne.symm, hf, ih.2]
    · by_cases hfa : isFlag a = true
      · constructor <;> intro x <;> simp [keepOf, valsOf, ha, hfa, ih.1]
      · have hag : a ≠ g := by rintro rfl; exact hfa hg
        constructor <;> intro x <;> simp [keepOf, valsOf, ha, hfa, hag, ih.1, ih.2]

theorem mem_keepOf (f g : Str) (hg : isFlag g = true) (hne : g ≠ f) (l : List Str) :
    ∀ ins, g ∈ keepOf f ins l ↔ g ∈ l := by
  induction l with
  | nil => intro _; rfl
  | cons a r ih =>
    intro ins
    by_cases ha : a = f
    · subst ha; simp [keepOf, ih, hne]
    · by_cases hfa : isFlag a = true
      · simp [keepOf, ha, hfa, ih]
      · have hag : g ≠ a := by rintro rfl; exact hfa hg
        cases ins <;> simp [keepOf, ha, hfa, ih, hag]

theorem mem_of_mem_keepOf (f g : Str) (l : List Str) : ∀ ins, g ∈ keepOf f ins l → g ∈ l ∧ g ≠ f := by
  induction l with
  | nil => intro _ h; cases h
  | cons a r ih =>
    intro ins h
    unfold keepOf at h
    split at h
    · have := ih _ h; exact ⟨List.mem_cons_of_mem _ this.1, this.2⟩
    · rename_i ha
      split at h
      · rcases List.mem_cons.1 h with rfl | h
        · exact ⟨List.mem_cons_self, ha⟩
        · have := ih _ h; exact ⟨List.mem_cons_of_mem _ this.1, this.2⟩
      · split at h
        · have := ih _ h; exact ⟨List.mem_cons_of_mem _ this.1, this.2⟩
        · rcases List.mem_cons.1 h with rfl | h
          · exact ⟨List.mem_cons_self, ha⟩
          · have := ih _ h; exact ⟨List.mem_cons_of_mem _ this.1, this.2⟩

theorem headVals_keepOf (f : Str) (hf : isFlag f = true) (l : List Str) :
    headVals (keepOf f false l) = headVals l ∧ headVals (keepOf f true l) = [] := by
  induction l with
  | nil => exact ⟨rfl, rfl⟩
  | cons a r ih =>
    by_cases ha : a = f
    · subst ha; simp [keepOf, headVals, hf]; simpa [headVals] using ih.2
    · by_cases hfa : isFlag a = true
      · simp [keepOf, headVals, ha, hfa]
      · have h1 := ih.1; have h2 := ih.2
        simp only [headVals] at h1 h2
        simp [keepOf, headVals, ha, hfa, h1, h2]

theorem startsWithFlag_iff (l : List Str) : StartsWithFlag l ↔ headVals l = [] := by
  unfold StartsWithFlag
  cases l with
  | nil => simp [headVals]
  | cons a r => by_cases h : isFlag a = true <;> simp [headVals, h]

/-- Recursive form of: every occurrence satisfies `P` for its values. -/
def allOcc (f : Str) (P : List Str → Prop) : List Str → Prop
  | [] => True
  | a :: r => (a = f → P (headVals r)) ∧ allOcc f P r

theorem allOcc_iff (f : Str) (P : List Str → Prop) (l : List Str) :
    allOcc f P l ↔ ∀ v, Occurs f v l → P v := by
  constructor
  · rintro h v ⟨pre, post, rfl, hv, hpost⟩
    have hh : headVals (v ++ post) = v := by
      unfold headVals
      rw [List.takeWhile_append_of_pos (by simpa using hv)]
      have : headVals post = [] := (startsWithFlag_iff post).1 hpost
      unfold headVals at this
      rw [this, List.append_nil]
    induction pre with
    | nil =>
      have := h.1 rfl
      rw [hh] at this
      exact this
    | cons b pre ih => exact ih h.2
  · intro h
    induction l with
    | nil => trivial
    | cons a r ih =>
      refine ⟨fun ha => ?_, ih fun v hv => ?_⟩
      · subst ha
        refine h _ ⟨[], r.dropWhile (fun a => !isFlag a), ?_, headVals_mem r, ?_⟩
        · rw [List.nil_append, ← headVals_split]
        · intro b hb
          cases hd : r.dropWhile (fun a => !isFlag a) with
          | nil => rw [hd] at hb; cases hb
          | cons x t =>
            rw [hd] at hb
            have h2 := List.head_dropWhile_not (p := fun a => !isFlag a) (l := r) (by rw [hd]; simp)
            have h3 : (r.dropWhile fun a => !isFlag a).head (by rw [hd]; simp) = x := by
              simp only [hd, List.head_cons]
            rw [h3] at h2
            simp only [List.head?_cons, Option.some.injEq] at hb
            rw [← hb]; simpa using h2
      · obtain ⟨pre, post, hr, h1, h2⟩ := hv
        exact h v ⟨a :: pre, post, by rw [hr]; rfl, h1, h2⟩

theorem allOcc_keepOf (f g : Str) (hf : isFlag f = true) (hg : isFlag g = true) (hne : g ≠ f)
    (P : List Str → Prop) (l : List Str) :
    ∀ ins, allOcc g P (keepOf f ins l) ↔ allOcc g P l := by
  induction l with
  | nil => intro _; rfl
  | cons a r ih =>
    intro ins
    by_cases ha : a = f
    · subst ha; simp [keepOf, allOcc, ih, hne.symm]
    · by_cases hfa : isFlag a = true
      · have := (headVals_keepOf f hf r).1
        simp [keepOf, allOcc, ha, hfa, ih, this]
      · have hag : a ≠ g := by rintro rfl; exact hfa hg
        cases ins <;> simp [keepOf, allOcc, ha, hfa, ih, hag]

theorem countsOK_of_allOcc (f : Str) (number : ℤ) (l : List Str)
    (h : allOcc f (fun v => number < 0 ∨ number = v.length) l) : countsOK f number l := by
  induction l with
  | nil => trivial
  | cons a r ih => exact ⟨fun ha => .inr (h.1 ha), ih h.2⟩

theorem allOcc_of_countsOK (f : Str) (number : ℤ) (l : List Str) (h : countsOK f number l) :
    allOcc f (fun v => v = [] ∨ number < 0 ∨ number = v.length) l := by
  induction l with
  | nil => trivial
  | cons a r ih =>
    refine ⟨fun ha => ?_, ih h.2⟩
    rcases h.1 ha with h | h
    · left; rw [h]; rfl
    · right; exact h

/-! ### The loop over the flags -/

theorem bind_quit_or {β γ : Type} (o : CmdOut β) (f : β → CmdOut γ) (c : γ) :
    o.bind f = .done c ↔ ∃ b, o = .done b ∧ f b = .done c := by
  cases o <;> simp [CmdOut.bind]

/-- What the loop over the flags returns when it ends normally. -/
theorem fillLoop_done (flags : List (Str × ℤ)) (hfl : ∀ p ∈ flags, isFlag p.1 = true)
    (hnd : (flags.map Prod.fst).Nodup) : ∀ (argv : List Str) m rest,
    fillLoop flags argv = .done (m, rest) →
    m = flags.map (fun p => (p.1, flagValues p.1 argv, decide (p.1 ∈ argv))) ∧
    rest = flags.foldl (fun l p => keepOf p.1 false l) argv ∧
    ∀ p ∈ flags, allOcc p.1 (fun v => v = [] ∨ p.2 < 0 ∨ p.2 = v.length) argv := by
  induction flags with
  | nil =>
    intro argv m rest h
    simp only [fillLoop, CmdOut.done.injEq, Prod.mk.injEq] at h
    obtain ⟨rfl, rfl⟩ := h
    exact ⟨rfl, rfl, fun p hp => by cases hp⟩
  | cons p flags ih =>
    obtain ⟨f, number⟩ := p
    intro argv m rest h
    have hf : isFlag f = true := hfl _ List.mem_cons_self
    rw [List.map_cons, List.nodup_cons] at hnd
    unfold fillLoop at h
    rw [readArgVector_spec argv f hf, bind_quit_or] at h
    obtain ⟨b, h1, h2⟩ := h
    split at h1
    · rename_i hc
      simp only [CmdOut.done.injEq] at h1
      subst h1
      rw [bind_quit_or] at h2
      obtain ⟨⟨m', rest'⟩, h3, h4⟩ := h2
      simp only [CmdOut.done.injEq, Prod.mk.injEq] at h4
      obtain ⟨rfl, rfl⟩ := h4
      obtain ⟨i1, i2, i3⟩ := ih (fun p hp => hfl p (List.mem_cons_of_mem _ hp)) hnd.2 _ _ _ h3
      have hother : ∀ p ∈ flags, isFlag p.1 = true ∧ p.1 ≠ f := by
        intro p hp
        refine ⟨hfl p (List.mem_cons_of_mem _ hp), ?_⟩
        rintro rfl
        exact hnd.1 (List.mem_map.2 ⟨p, hp, rfl⟩)
      refine ⟨?_, ?_, ?_⟩
      · rw [i1, List.map_cons, (valsOf_eq f hf argv).1]
        congr 1
        apply List.map_congr_left
        intro p hp
        obtain ⟨hp1, hp2⟩ := hother p hp
        rw [← (valsOf_eq p.1 hp1 _).1, (valsOf_keepOf f p.1 hf hp1 hp2 argv).1 false,
          (valsOf_eq p.1 hp1 _).1]
        simp only [mem_keepOf f p.1 hp1 hp2 argv false]
      · rw [i2, List.foldl_cons]
      · intro p hp
        rcases List.mem_cons.1 hp with rfl | hp
        · exact allOcc_of_countsOK _ _ _ hc
        · obtain ⟨hp1, hp2⟩ := hother p hp
          exact (allOcc_keepOf f p.1 hf hp1 hp2 _ argv false).1 (i3 p hp)
    · cases h1

theorem fillLoop_ok (flags : List (Str × ℤ)) (hfl : ∀ p ∈ flags, isFlag p.1 = true)
    (hnd : (flags.map Prod.fst).Nodup) : ∀ (argv : List Str),
    (∀ p ∈ flags, allOcc p.1 (fun v => p.2 < 0 ∨ p.2 = v.length) argv) →
    ∃ m rest, fillLoop flags argv = .done (m, rest) := by
  induction flags with
  | nil => intro argv _; exact ⟨_, _, rfl⟩
  | cons p flags ih =>
    obtain ⟨f, number⟩ := p
    intro argv h
    have hf : isFlag f = true := hfl _ List.mem_cons_self
    rw [List.map_cons, List.nodup_cons] at hnd
    unfold fillLoop
    rw [readArgVector_spec argv f hf, if_pos (countsOK_of_allOcc _ _ _ (h _ List.mem_cons_self))]
    dsimp only [CmdOut.bind]
    obtain ⟨m, rest, he⟩ := ih (fun p hp => hfl p (List.mem_cons_of_mem _ hp)) hnd.2
      (keepOf f false argv) (by
        intro p hp
        have hp2 : p.1 ≠ f := by
          rintro rfl
          exact hnd.1 (List.mem_map.2 ⟨p, hp, rfl⟩)
        exact (allOcc_keepOf f p.1 hf (hfl p (List.mem_cons_of_mem _ hp)) hp2 _ argv false).2
          (h p (List.mem_cons_of_mem _ hp)))
    rw [he]
    exact ⟨_, _, rfl⟩

theorem fillLoop_defined (flags : List (Str × ℤ)) (hfl : ∀ p ∈ flags, isFlag p.1 = true) :
    ∀ (argv : List Str), fillLoop flags argv = .quit ∨ ∃ q, fillLoop flags argv = .done q := by
  induction flags with
  | nil => intro argv; exact .inr ⟨_, rfl⟩
  | cons p flags ih =>
    obtain ⟨f, number⟩ := p
    intro argv
    unfold fillLoop
    rw [readArgVector_spec argv f (hfl _ List.mem_cons_self)]
    split
    · dsimp only [CmdOut.bind]
      rcases ih (fun p hp => hfl p (List.mem_cons_of_mem _ hp)) (keepOf f false argv) with h | ⟨q, h⟩
      · rw [h]; exact .inl rfl
      · rw [h]; exact .inr ⟨_, rfl⟩
    · exact .inl rfl

theorem foldl_keepOf_cons (flags : List (Str × ℤ)) (hfl : ∀ p ∈ flags, isFlag p.1 = true) (a : Str)
    (ha : isFlag a = false) : ∀ (l : List Str),
    flags.foldl (fun l p => keepOf p.1 false l) (a :: l) =
      a :: flags.foldl (fun l p => keepOf p.1 false l) l := by
  induction flags with
  | nil => intro l; rfl
  | cons p flags ih =>
    intro l
    have hne : a ≠ p.1 := by
      rintro rfl
      have := hfl p List.mem_cons_self
      rw [ha] at this; cases this
    rw [List.foldl_cons, List.foldl_cons]
    have : keepOf p.1 false (a :: l) = a :: keepOf p.1 false l := by simp [keepOf, hne, ha]
    rw [this]
    exact ih (fun p hp => hfl p (List.mem_cons_of_mem _ hp)) _

theorem mem_foldl_keepOf (flags : List (Str × ℤ)) (g : Str) (hg : isFlag g = true)
    (hne : ∀ p ∈ flags, p.1 ≠ g) : ∀ (l : List Str),
    g ∈ flags.foldl (fun l p => keepOf p.1 false l) l ↔ g ∈ l := by
  induction flags with
  | nil => intro l; rfl
  | cons p flags ih =>
    intro l
    rw [List.foldl_cons, ih (fun p hp => hne p (List.mem_cons_of_mem _ hp)),
      mem_keepOf p.1 g hg (Ne.symm (hne p List.mem_cons_self)) l false]

theorem foldl_keepOf_props (flags : List (Str × ℤ)) (hfl : ∀ p ∈ flags, isFlag p.1 = true) :
    ∀ (l : List Str), StartsWithFlag l →
    StartsWithFlag (flags.foldl (fun l p => keepOf p.1 false l) l) ∧
    ∀ g ∈ flags.foldl (fun l p => keepOf p.1 false l) l, g ∈ l ∧ ∀ p ∈ flags, p.1 ≠ g := by
  induction flags with
  | nil => intro l h; exact ⟨h, fun g hg => ⟨hg, fun p hp => by cases hp⟩⟩
  | cons p flags ih =>
    intro l h
    rw [List.foldl_cons]
    obtain ⟨h1, h2⟩ := ih (fun p hp => hfl p (List.mem_cons_of_mem _ hp)) (keepOf p.1 false l) (by
      rw [startsWithFlag_iff, (headVals_keepOf p.1 (hfl p List.mem_cons_self) l).1,
        ← startsWithFlag_iff]
      exact h)
    refine ⟨h1, fun g hg => ?_⟩
    obtain ⟨h3, h4⟩ := h2 g hg
    obtain ⟨h5, h6⟩ := mem_of_mem_keepOf p.1 g l false h3
    refine ⟨h5, fun q hq => ?_⟩
    rcases List.mem_cons.1 hq with rfl | hq
    · exact Ne.symm h6
    · exact h4 q hq

/-! ### The property -/

/-- **C19 (defined).** The parser never accesses an array out of bounds and always ends. -/
theorem C19_always_defined (flags : List (Str × ℤ)) (hfl : ∀ p ∈ flags, isFlag p.1 = true)
    (argv : List Str) :
    fillArgmap flags argv = .quit ∨ ∃ m, fillArgmap flags argv = .done m := by
  unfold fillArgmap
  rcases fillLoop_defined flags hfl argv with h | ⟨q, h⟩
  · rw [h]; exact .inl rfl
  · rw [h]
    dsimp only [CmdOut.bind]
    split
    · exact .inl rfl
    · exact .inr ⟨_, rfl⟩

/-- **C19 (values, rejection).** If the parser accepts the arguments, every registered flag has exactly
the values that follow its occurrences, in order; every flag that was given is registered; no value
stands before the first flag; and every occurrence with at least one value has the required number of
values. Missing: occurrences without values, see `C19_missing_value_accepted`. -/
theorem C19_accepted_partial (flags : List (Str × ℤ)) (hfl : ∀ p ∈ flags, isFlag p.1 = true)
    (hnd : (flags.map Prod.fst).Nodup) (prog : Str) (hprog : isFlag prog = false) (args : List Str)
    (m : ArgMap) (h : fillArgmap flags (prog :: args) = .done m) :
    m = flags.map (fun p => (p.1, flagValues p.1 args, decide (p.1 ∈ args))) ∧
    StartsWithFlag args ∧
    (∀ a ∈ args, isFlag a = true → a ∈ flags.map Prod.fst) ∧
    ∀ p ∈ flags, 0 ≤ p.2 → ∀ v, v ≠ [] → Occurs p.1 v args → (v.length : ℤ) = p.2 := by
  unfold fillArgmap at h
  rw [bind_quit_or] at h
  obtain ⟨⟨m', rest⟩, h1, h2⟩ := h
  obtain ⟨e1, e2, e3⟩ := fillLoop_done flags hfl hnd _ _ _ h1
  dsimp only at h2
  split at h2
  · cases h2
  · rename_i hlen
    simp only [CmdOut.done.injEq] at h2
    subst h2
    rw [e2, foldl_keepOf_cons flags hfl prog hprog] at hlen
    have hnil : flags.foldl (fun l p => keepOf p.1 false l) args = [] := by
      simp only [List.length_cons] at hlen
      exact List.length_eq_zero_iff.1 (by omega)
    have hnep : ∀ p ∈ flags, prog ≠ p.1 := by
      rintro p hp rfl
      have := hfl p hp
      rw [hprog] at this; cases this
    refine ⟨?_, ?_, ?_, ?_⟩
    · rw [e1]
      apply List.map_congr_left
      intro p hp
      have h1 : flagValues p.1 (prog :: args) = flagValues p.1 args := by
        simp [flagValues, hnep p hp]
      have h2 : (p.1 ∈ prog :: args) ↔ p.1 ∈ args := by
        simp [List.mem_cons, Ne.symm (hnep p hp)]
      rw [h1]
      simp only [h2]
    · intro a ha
      by_contra hna
      have hna' : isFlag a = false := by simpa using hna
      obtain ⟨r, rfl⟩ : ∃ r, args = a :: r := by
        cases args with
        | nil => cases ha
        | cons b r =>
          simp only [List.head?_cons, Option.some.injEq] at ha
          exact ⟨r, by rw [ha]⟩
      rw [foldl_keepOf_cons flags hfl a hna'] at hnil
      cases hnil
    · intro a ha hfa
      by_contra hno
      have := (mem_foldl_keepOf flags a hfa (fun p hp he => hno (List.mem_map.2 ⟨p, hp, he⟩)) args).2 ha
      rw [hnil] at this
      cases this
    · intro p hp hn v hv hocc
      have h3 := (allOcc_iff p.1 _ _).1 (e3 p hp) v (by
        obtain ⟨pre, post, he, hr⟩ := hocc
        exact ⟨prog :: pre, post, by rw [he]; rfl, hr⟩)
      rcases h3 with h3 | h3 | h3
      · exact absurd h3 hv
      · omega
      · omega

/-- **C19 (acceptance).** Arguments that consist of registered flags, each occurrence with the
required number of values, are accepted. -/
theorem C19_accepts (flags : List (Str × ℤ)) (hfl : ∀ p ∈ flags, isFlag p.1 = true)
    (hnd : (flags.map Prod.fst).Nodup) (prog : Str) (hprog : isFlag prog = false) (args : List Str)
    (hstart : StartsWithFlag args)
    (hknown : ∀ a ∈ args, isFlag a = true → a ∈ flags.map Prod.fst)
    (hcount : ∀ p ∈ flags, 0 ≤ p.2 → ∀ v, Occurs p.1 v args → (v.length : ℤ) = p.2) :
    ∃ m, fillArgmap flags (prog :: args) = .done m := by
  have hnep : ∀ p ∈ flags, prog ≠ p.1 := by
    rintro p hp rfl
    have := hfl p hp
    rw [hprog] at this; cases this
  obtain ⟨m, rest, he⟩ := fillLoop_ok flags hfl hnd (prog :: args) (by
    intro p hp
    refine ⟨fun h => absurd h (hnep p hp), ?_⟩
    rw [allOcc_iff]
    intro v hv
    by_cases hn : 0 ≤ p.2
    · right; exact (hcount p hp hn v hv).symm
    · left; omega)
  obtain ⟨_, e2, _⟩ := fillLoop_done flags hfl hnd _ _ _ he
  obtain ⟨h1, h2⟩ := foldl_keepOf_props flags hfl args hstart
  have hnil : flags.foldl (fun l p => keepOf p.1 false l) args = [] := by
    cases hl : flags.foldl (fun l p => keepOf p.1 false l) args with
    | nil => rfl
    | cons a r =>
      rw [hl] at h1 h2
      have ha := h1 a rfl
      obtain ⟨h3, h4⟩ := h2 a List.mem_cons_self
      obtain ⟨p, hp, hpe⟩ := List.mem_map.1 (hknown a h3 ha)
      exact absurd hpe (h4 p hp)
  refine ⟨m, ?_⟩
  unfold fillArgmap
  rw [he]
  dsimp only [CmdOut.bind]
  rw [if_neg]
  rw [e2, foldl_keepOf_cons flags hfl prog hprog, hnil]
  simp

/-- **C19 (order).** If two orders of the same flags are both accepted they give every flag the same
values. -/
theorem C19_order_independent_partial (flags flags' : List (Str × ℤ)) (hperm : flags.Perm flags')
    (hfl : ∀ p ∈ flags, isFlag p.1 = true) (hnd : (flags.map Prod.fst).Nodup) (prog : Str)
    (hprog : isFlag prog = false) (args : List Str) (m m' : ArgMap)
    (h : fillArgmap flags (prog :: args) = .done m)
    (h' : fillArgmap flags' (prog :: args) = .done m') : m.Perm m' := by
  have h1 := (C19_accepted_partial flags hfl hnd prog hprog args m h).1
  have h2 := (C19_accepted_partial flags' (fun p hp => hfl p (hperm.mem_iff.2 hp))
    ((hperm.map Prod.fst).nodup_iff.1 hnd) prog hprog args m' h').1
  rw [h1, h2]
  exact hperm.map _

/-- **C19 is false for a missing value at the end.** A flag that needs arguments is accepted without
any when it is the last argument. -/
theorem C19_missing_value_accepted (f prog : Str) (hf : isFlag f = true) (hprog : isFlag prog = false)
    (number : ℤ) : ∃ m, fillArgmap [(f, number)] [prog, f] = .done m := by
  have hne : prog ≠ f := by rintro rfl; rw [hf] at hprog; cases hprog
  unfold fillArgmap fillLoop
  rw [readArgVector_spec _ _ hf, if_pos (by simp [countsOK, hne])]
  refine ⟨[(f, [], true)], ?_⟩
  simp [CmdOut.bind, fillLoop, keepOf, valsOf, hne, hprog]

/-- **C19, order of processing.** Whether a missing value is detected depends on the names of the
flags: `-b -a 1` is accepted if `-a` is processed first and rejected if `-b` is. -/
theorem C19_order_dependent :
    (∃ m, fillArgmap [(['-', 'a'], 1), (['-', 'b'], 1)]
      [['p'], ['-', 'b'], ['-', 'a'], ['1']] = .done m) ∧
    fillArgmap [(['-', 'b'], 1), (['-', 'a'], 1)]
      [['p'], ['-', 'b'], ['-', 'a'], ['1']] = .quit := by
  refine ⟨⟨[(['-', 'a'], [['1']], true), (['-', 'b'], [], true)], ?_⟩, ?_⟩ <;> decide +kernel

/-- **C19, `values()` of an unknown flag.** The test for an unknown flag comes after the access that
inserts the flag, so an empty list is returned instead of an error. -/
theorem C19_unknown_query_accepted (m : ArgMap) (flag : Str) (h : ∀ e ∈ m, e.1 ≠ flag) :
    cmdValues m flag = .done [] := by
  have hfind : m.find? (fun e => e.1 = flag) = none := by
    rw [List.find?_eq_none]
    intro e he
    simpa using h e he
  simp [cmdValues, ArgMap.get, hfind, ArgMap.count]

/-- The case given in the documentation of `read_arg_vector`. -/
example : fillArgmap [("-b_flag".toList, -1), ("-flag".toList, -1)]
    (["prog", "-flag", "a", "-b_flag", "b", "-flag", "c", "d", "-flag", "-flag", "4"].map String.toList) =
    .done [("-b_flag".toList, ["b".toList], true),
      ("-flag".toList, ["a", "c", "d", "4"].map String.toList, true)] := by
  decide +kernel

example : isFlag "-flag".toList = true ∧ isFlag "prog".toList = false ∧ isFlag "-1.5".toList = false ∧
    ([("-b_flag".toList, (-1 : ℤ)), ("-flag".toList, 2)].map Prod.fst).Nodup := by
  decide +kernel

example : Occurs "-f".toList ["3".toList] ["-f".toList, "3".toList, "-g".toList] :=
  ⟨[], ["-g".toList], rfl, by decide, by decide⟩

end Hila
