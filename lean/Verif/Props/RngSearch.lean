import Verif.Model.RngSearch
import Mathlib.Data.Fintype.Card
import Mathlib.Data.Finset.Card

/-!
# C105: a site loop that draws random numbers is recognised
-/

namespace Hila

variable {F : Type}

/-! ## The specification -/

/-- The function that an entry leads to, also the hidden ones. -/
def RItem.target : RItem F → F
  | .call f => f
  | .ctor f => f
  | .hidden f => f

/-- Executing the entries `items` may draw a random number: it reaches a function that is itself a generator
(`gen`). `run f` is everything that executing `f` reaches, whether or not hilapp sees it. -/
inductive Draws (gen : F → Prop) (run : F → List (RItem F)) : List (RItem F) → Prop
  | here (items : List (RItem F)) (it : RItem F) : it ∈ items → gen it.target → Draws gen run items
  | step (items : List (RItem F)) (it : RItem F) : it ∈ items → Draws gen run (run it.target) → Draws gen run items

/-- `f` is called somewhere in the code reached from `items` through calls with a visible body, and through
constructors if `ctors`. -/
inductive CallReach (P : RProg F) (ctors : Bool) : List (RItem F) → F → Prop
  | here (items : List (RItem F)) (f : F) : .call f ∈ items → CallReach P ctors items f
  | call (items b : List (RItem F)) (g f : F) : .call g ∈ items → P.body g = some b → CallReach P ctors b f →
      CallReach P ctors items f
  | ctor (items b : List (RItem F)) (g f : F) : ctors = true → .ctor g ∈ items → P.body g = some b →
      CallReach P ctors b f → CallReach P ctors items f

/-! ## The search `contains_random` -/

section

variable [DecidableEq F] (P : RProg F)

/-- Nothing found and everything called is in the list `v`. -/
def RClosed (v : List F) (items : List (RItem F)) : Prop :=
  ∀ f, .call f ∈ items → P.named f = false ∧ P.pragma f = false ∧ ∀ b, P.body f = some b → f ∈ v

/-- What a search that found nothing guarantees. -/
def RndOk (items : List (RItem F)) (vis : List F) (r : Bool × List F) : Prop :=
  (r.1 = true → ∃ f, CallReach P false items f ∧ (P.named f = true ∨ P.pragma f = true)) ∧
  (r.1 = false → vis ⊆ r.2 ∧ RClosed P r.2 items ∧
    ∀ f ∈ r.2, f ∉ vis → ∀ b, P.body f = some b → RClosed P r.2 b)

omit [DecidableEq F] in
theorem RClosed.mono {v w : List F} {items : List (RItem F)} (h : RClosed P v items) (hs : v ⊆ w) :
    RClosed P w items := fun f hf => ⟨(h f hf).1, (h f hf).2.1, fun b hb => hs ((h f hf).2.2 b hb)⟩

omit [DecidableEq F] in
theorem CallReach.mono (P : RProg F) {c : Bool} {items items' : List (RItem F)} {f : F} (h : CallReach P c items f)
    (hs : ∀ x ∈ items, x ∈ items') : CallReach P c items' f := by
  cases h with
  | here _ _ h => exact .here _ _ (hs _ h)
  | call _ b g _ h1 h2 h3 => exact .call _ b g _ (hs _ h1) h2 h3
  | ctor _ b g _ h0 h1 h2 h3 => exact .ctor _ b g _ h0 (hs _ h1) h2 h3

theorem rndScan_ok (go : List (RItem F) → List F → Option (Bool × List F))
    (hgo : ∀ b vis r, go b vis = some r → RndOk P b vis r) :
    ∀ items vis r, rndScan P go items vis = some r → RndOk P items vis r := by
  intro items
  induction items with
  | nil =>
    intro vis r h
    simp only [rndScan, Option.some.injEq] at h
    subst h
    refine ⟨by simp, fun _ => ⟨List.Subset.refl _, fun f hf => by simp at hf, fun f hf hn => absurd hf hn⟩⟩
  | cons it rest ih =>
    intro vis r h
    have weak : ∀ (v : List F) (r : Bool × List F), RndOk P rest v r → (∀ f, it ≠ .call f) →
        RndOk P (it :: rest) v r := by
      intro v r hr hit
      refine ⟨fun ht => ?_, fun hf => ?_⟩
      · obtain ⟨f, h1, h2⟩ := hr.1 ht
        exact ⟨f, h1.mono P fun x hx => List.mem_cons_of_mem _ hx, h2⟩
      · obtain ⟨h1, h2, h3⟩ := hr.2 hf
        refine ⟨h1, fun f hfi => ?_, h3⟩
        rcases List.mem_cons.1 hfi with e | e
        · exact absurd e.symm (hit f)
        · exact h2 f e
    cases it with
    | ctor g => exact weak vis r (ih vis r h) (by simp)
    | hidden g => exact weak vis r (ih vis r h) (by simp)
    | call g =>
      unfold rndScan at h
      by_cases hhit : (P.named g || P.pragma g) = true
      · rw [if_pos hhit] at h
        simp only [Option.some.injEq] at h
        subst h
        refine ⟨fun _ => ⟨g, .here _ _ (by simp), by simpa using hhit⟩, by simp⟩
      · rw [if_neg hhit] at h
        have hnh : P.named g = false ∧ P.pragma g = false := by simpa using hhit
        have cont : ∀ (v : List F) (r : Bool × List F), RndOk P rest v r → (∀ b, P.body g = some b → g ∈ v) →
            RndOk P (.call g :: rest) v r := by
          intro v r hr hgv
          refine ⟨fun ht => ?_, fun hf => ?_⟩
          · obtain ⟨f, h1, h2⟩ := hr.1 ht
            exact ⟨f, h1.mono P fun x hx => List.mem_cons_of_mem _ hx, h2⟩
          · obtain ⟨h1, h2, h3⟩ := hr.2 hf
            refine ⟨h1, fun f hfi => ?_, h3⟩
            rcases List.mem_cons.1 hfi with e | e
            · simp only [RItem.call.injEq] at e
              subst e
              exact ⟨hnh.1, hnh.2, fun b hb => h1 (hgv b hb)⟩
            · exact h2 f e
        cases hb : P.body g with
        | none =>
          rw [hb] at h
          exact cont vis r (ih vis r h) (by simp [hb])
        | some b =>
          rw [hb] at h
          dsimp only at h
          by_cases hv : g ∈ vis
          · rw [if_pos hv] at h
            exact cont vis r (ih vis r h) fun _ _ => hv
          · rw [if_neg hv] at h
            cases hg : go b (g :: vis) with
            | none => rw [hg] at h; cases h
            | some q =>
              rw [hg] at h
              have hq := hgo b (g :: vis) q hg
              simp only [Option.bind_some] at h
              by_cases hq1 : q.1 = true
              · rw [if_pos hq1] at h
                simp only [Option.some.injEq] at h
                subst h
                obtain ⟨f, h1, h2⟩ := hq.1 hq1
                exact ⟨fun _ => ⟨f, .call _ b g f (by simp) hb h1, h2⟩, by simp⟩
              · rw [if_neg hq1] at h
                have hr := ih q.2 r h
                obtain ⟨q1, q2, q3⟩ := hq.2 (by simpa using hq1)
                refine ⟨fun ht => ?_, fun hf => ?_⟩
                · obtain ⟨f, h1, h2⟩ := hr.1 ht
                  exact ⟨f, h1.mono P fun x hx => List.mem_cons_of_mem _ hx, h2⟩
                · obtain ⟨h1, h2, h3⟩ := hr.2 hf
                  refine ⟨fun x hx => h1 (q1 (List.mem_cons_of_mem _ hx)), fun f hfi => ?_, ?_⟩
                  · rcases List.mem_cons.1 hfi with e | e
                    · simp only [RItem.call.injEq] at e
                      subst e
                      exact ⟨hnh.1, hnh.2, fun _ _ => h1 (q1 (by simp))⟩
                    · exact h2 f e
                  · intro f hf1 hf2 b' hb'
                    by_cases hfq : f ∈ q.2
                    · by_cases hfg : f = g
                      · subst hfg
                        rw [hb] at hb'
                        simp only [Option.some.injEq] at hb'
                        subst hb'
                        exact q2.mono P h1
                      · exact (q3 f hfq (by simp [hfg, hf2]) b' hb').mono P h1
                    · exact h3 f hf1 hfq b' hb'

theorem rndSearch_ok : ∀ k items vis r, rndSearch P k items vis = some r → RndOk P items vis r := by
  intro k
  induction k with
  | zero => intro items vis r h; cases h
  | succ k ih => exact rndScan_ok P _ ih

/-- The search is right: it finds a function of that name or with the pragma if and only if one is called in the
code reached through calls with visible bodies. -/
theorem containsRandom_iff (k : ℕ) (items : List (RItem F)) (r : Bool) (h : containsRandom P k items = some r) :
    r = true ↔ ∃ f, CallReach P false items f ∧ (P.named f = true ∨ P.pragma f = true) := by
  unfold containsRandom at h
  cases hs : rndSearch P k items [] with
  | none => rw [hs] at h; cases h
  | some q =>
    rw [hs] at h
    simp only [Option.map_some, Option.some.injEq] at h
    subst h
    have hq := rndSearch_ok P k items [] q hs
    refine ⟨hq.1, ?_⟩
    rintro ⟨f, hr, hf⟩
    by_contra hne
    obtain ⟨_, q2, q3⟩ := hq.2 (by simpa using hne)
    have key : ∀ its f, CallReach P false its f → RClosed P q.2 its → P.named f = false ∧ P.pragma f = false := by
      intro its f hr
      induction hr with
      | here its f hm => exact fun hc => ⟨(hc f hm).1, (hc f hm).2.1⟩
      | call its b g f hm hb _ ih =>
        intro hc
        exact ih (q3 g ((hc g hm).2.2 b hb) (by simp) b hb)
      | ctor its b g f h0 => cases h0
    obtain ⟨k1, k2⟩ := key items f hr q2
    rcases hf with hf | hf
    · rw [k1] at hf; cases hf
    · rw [k2] at hf; cases hf

/-! ## It ends -/

variable [Fintype F]

/-- The number of functions that are not in the list. -/
def notIn (v : List F) : ℕ := (Finset.univ.filter fun f => f ∉ v).card

theorem notIn_mono {v w : List F} (h : v ⊆ w) : notIn w ≤ notIn v := by
  unfold notIn
  refine Finset.card_le_card fun f hf => ?_
  simp only [Finset.mem_filter, Finset.mem_univ, true_and] at hf ⊢
  exact fun hv => hf (h hv)

theorem notIn_cons {v : List F} {f : F} (h : f ∉ v) : notIn (f :: v) < notIn v := by
  unfold notIn
  refine Finset.card_lt_card ?_
  rw [Finset.ssubset_iff_of_subset]
  · exact ⟨f, by simp [h], by simp⟩
  · intro g hg
    simp only [Finset.mem_filter, Finset.mem_univ, true_and, List.mem_cons, not_or] at hg ⊢
    exact hg.2

theorem rndScan_some (go : List (RItem F) → List F → Option (Bool × List F)) (k : ℕ)
    (hgo : ∀ b vis, notIn vis < k → (go b vis).isSome = true)
    (hok : ∀ b vis r, go b vis = some r → RndOk P b vis r) :
    ∀ items vis, notIn vis < k + 1 → (rndScan P go items vis).isSome = true := by
  intro items
  induction items with
  | nil => intro vis _; rfl
  | cons it rest ih =>
    intro vis hv
    cases it with
    | ctor g => exact ih vis hv
    | hidden g => exact ih vis hv
    | call g =>
      unfold rndScan
      split
      · rfl
      · cases hb : P.body g with
        | none => exact ih vis hv
        | some b =>
          dsimp only
          split
          · exact ih vis hv
          · rename_i hg
            have hlt := notIn_cons hg
            have hs := hgo b (g :: vis) (by omega)
            cases hq : go b (g :: vis) with
            | none => rw [hq] at hs; cases hs
            | some q =>
              simp only [Option.bind_some]
              by_cases hq1 : q.1 = true
              · rw [if_pos hq1]; rfl
              · rw [if_neg hq1]
                have hqo := ((hok b _ q hq).2 (by simpa using hq1)).1
                have := notIn_mono hqo
                exact ih q.2 (by omega)

theorem rndSearch_some : ∀ k items vis, notIn vis < k → (rndSearch P k items vis).isSome = true := by
  intro k
  induction k with
  | zero => intro items vis h; omega
  | succ k ih => exact rndScan_some P _ k ih (rndSearch_ok P k)

theorem containsRandom_some (k : ℕ) (hk : Fintype.card F < k) (items : List (RItem F)) :
    (containsRandom P k items).isSome = true := by
  unfold containsRandom
  have h : notIn ([] : List F) < k := by
    refine lt_of_le_of_lt ?_ hk
    exact Finset.card_le_univ _
  have := rndSearch_some P k items [] h
  rw [Option.isSome_map]
  exact this

end

/-! ## The marking of calls and the visit of functions -/

section

variable [DecidableEq F] (P : RProg F)

omit [DecidableEq F] in
theorem CallReach.any {items : List (RItem F)} {f : F} (h : CallReach P false items f) : CallReach P true items f := by
  induction h with
  | here items f h => exact .here _ _ h
  | call items b g f h1 h2 _ ih => exact .call _ b g _ h1 h2 ih
  | ctor items b g f h0 => cases h0

theorem flagItems_ok (hnp : ∀ f, P.named f = true → P.pragma f = true) (k : ℕ) :
    ∀ items a, flagItems P k items = some a →
      (a = true → ∃ f, CallReach P true items f ∧ P.pragma f = true) ∧
      (a = false → ∀ f, .call f ∈ items → P.pragma f = false) := by
  intro items
  induction items with
  | nil =>
    intro a h
    simp only [flagItems, Option.some.injEq] at h
    subst h
    simp
  | cons it rest ih =>
    intro a h
    have weak : (∀ f, it ≠ .call f) → flagItems P k rest = some a →
        (a = true → ∃ f, CallReach P true (it :: rest) f ∧ P.pragma f = true) ∧
        (a = false → ∀ f, .call f ∈ it :: rest → P.pragma f = false) := by
      intro hit h
      obtain ⟨h1, h2⟩ := ih a h
      refine ⟨fun ht => ?_, fun hf f hm => ?_⟩
      · obtain ⟨f, hr, hp⟩ := h1 ht
        exact ⟨f, hr.mono P fun x hx => List.mem_cons_of_mem _ hx, hp⟩
      · rcases List.mem_cons.1 hm with e | e
        · exact absurd e.symm (hit f)
        · exact h2 hf f e
    cases it with
    | ctor g => exact weak (by simp) h
    | hidden g => exact weak (by simp) h
    | call g =>
      unfold flagItems at h
      obtain ⟨c, hc, h⟩ := Option.bind_eq_some_iff.1 h
      obtain ⟨d, hd, h⟩ := Option.map_eq_some_iff.1 h
      obtain ⟨h1, h2⟩ := ih d hd
      subst h
      refine ⟨fun ht => ?_, fun hf f hm => ?_⟩
      · rcases Bool.or_eq_true_iff.1 ht with ht | ht
        · subst ht
          by_cases hp : P.pragma g = true
          · exact ⟨g, .here _ _ (by simp), hp⟩
          · rw [if_neg hp] at hc
            cases hb : P.body g with
            | none => rw [hb] at hc; cases hc
            | some b =>
              rw [hb] at hc
              obtain ⟨f, hr, hh⟩ := (containsRandom_iff P k b true hc).1 rfl
              exact ⟨f, .call _ b g f (by simp) hb (hr.any P), hh.elim (hnp f) id⟩
        · obtain ⟨f, hr, hp⟩ := h1 ht
          exact ⟨f, hr.mono P fun x hx => List.mem_cons_of_mem _ hx, hp⟩
      · obtain ⟨hf1, hf2⟩ := Bool.or_eq_false_iff.1 hf
        rcases List.mem_cons.1 hm with e | e
        · simp only [RItem.call.injEq] at e
          subst e
          by_contra hp
          rw [if_pos (by simpa using hp)] at hc
          simp only [Option.some.injEq] at hc
          rw [← hc] at hf1
          cases hf1
        · exact h2 hf2 f e

/-- The functions with a body that the entries call or construct are in the list. -/
def VClosed (v : List F) (items : List (RItem F)) : Prop :=
  ∀ it ∈ items, ∀ f, it.visited? = some f → ∀ b, P.body f = some b → f ∈ v

/-- What the visit of the functions guarantees. -/
def VisOk (items : List (RItem F)) (s r : Bool × List F) : Prop :=
  (s.1 = true → r.1 = true) ∧
  (r.1 = true → s.1 = true ∨ ∃ f, CallReach P true items f ∧ P.pragma f = true) ∧
  s.2 ⊆ r.2 ∧ VClosed P r.2 items ∧
  ∀ f ∈ r.2, f ∉ s.2 → ∀ b, P.body f = some b →
    VClosed P r.2 b ∧ (r.1 = false → ∀ g, .call g ∈ b → P.pragma g = false)

omit [DecidableEq F] in
theorem VClosed.mono {v w : List F} {items : List (RItem F)} (h : VClosed P v items) (hs : v ⊆ w) :
    VClosed P w items := fun it hi f hf b hb => hs (h it hi f hf b hb)

omit [DecidableEq F] in
theorem CallReach.through {items b : List (RItem F)} {it : RItem F} {g f : F} (hi : it ∈ items)
    (hv : it.visited? = some g) (hb : P.body g = some b) (h : CallReach P true b f) : CallReach P true items f := by
  cases it with
  | call g' =>
    simp only [RItem.visited?, Option.some.injEq] at hv
    subst hv
    exact .call _ b _ _ hi hb h
  | ctor g' =>
    simp only [RItem.visited?, Option.some.injEq] at hv
    subst hv
    exact .ctor _ b _ _ rfl hi hb h
  | hidden g' => cases hv

theorem visitScan_ok (hnp : ∀ f, P.named f = true → P.pragma f = true) (kr : ℕ)
    (go : List (RItem F) → Bool × List F → Option (Bool × List F))
    (hgo : ∀ b s r, go b s = some r → VisOk P b s r) :
    ∀ items s r, visitScan P kr go items s = some r → VisOk P items s r := by
  intro items
  induction items with
  | nil =>
    intro s r h
    simp only [visitScan, Option.some.injEq] at h
    subst h
    exact ⟨id, Or.inl, List.Subset.refl _, fun it hi => by simp at hi, fun f hf hn => absurd hf hn⟩
  | cons it rest ih =>
    intro s r h
    have cont : VisOk P rest s r → (∀ f, it.visited? = some f → ∀ b, P.body f = some b → f ∈ s.2) →
        VisOk P (it :: rest) s r := by
      rintro ⟨h1, h2, h3, h4, h5⟩ hit
      refine ⟨h1, fun ht => ?_, h3, fun x hx f hf b hb => ?_, h5⟩
      · rcases h2 ht with h | ⟨f, hr, hp⟩
        · exact Or.inl h
        · exact Or.inr ⟨f, hr.mono P fun x hx => List.mem_cons_of_mem _ hx, hp⟩
      · rcases List.mem_cons.1 hx with e | e
        · subst e
          exact h3 (hit f hf b hb)
        · exact h4 x e f hf b hb
    unfold visitScan at h
    cases hv : it.visited? with
    | none =>
      rw [hv] at h
      exact cont (ih s r h) (by simp [hv])
    | some g =>
      rw [hv] at h
      dsimp only at h
      cases hb : P.body g with
      | none =>
        rw [hb] at h
        refine cont (ih s r h) fun f hf b hfb => ?_
        rw [hv] at hf
        simp only [Option.some.injEq] at hf
        rw [← hf, hb] at hfb
        cases hfb
      | some b =>
        rw [hb] at h
        dsimp only at h
        by_cases hm : g ∈ s.2
        · rw [if_pos hm] at h
          refine cont (ih s r h) fun f hf b _ => ?_
          rw [hv] at hf
          simp only [Option.some.injEq] at hf
          rw [← hf]
          exact hm
        · rw [if_neg hm] at h
          obtain ⟨a, ha, h⟩ := Option.bind_eq_some_iff.1 h
          obtain ⟨q, hq, h⟩ := Option.bind_eq_some_iff.1 h
          obtain ⟨a1, a2⟩ := flagItems_ok P hnp kr b a ha
          obtain ⟨q1, q2, q3, q4, q5⟩ := hgo b _ q hq
          obtain ⟨r1, r2, r3, r4, r5⟩ := ih q r h
          have hgq : g ∈ q.2 := q3 (by simp)
          refine ⟨fun ht => r1 (q1 (by simp [ht])), fun ht => ?_, fun x hx => r3 (q3 (by simp [hx])), ?_, ?_⟩
          · rcases r2 ht with hqt | ⟨f, hr, hp⟩
            · rcases q2 hqt with hst | ⟨f, hr, hp⟩
              · rcases Bool.or_eq_true_iff.1 hst with hst | hst
                · exact Or.inl hst
                · obtain ⟨f, hr, hp⟩ := a1 hst
                  exact Or.inr ⟨f, hr.through P (by simp) hv hb, hp⟩
              · exact Or.inr ⟨f, hr.through P (by simp) hv hb, hp⟩
            · exact Or.inr ⟨f, hr.mono P fun x hx => List.mem_cons_of_mem _ hx, hp⟩
          · intro x hx f hf b' hb'
            rcases List.mem_cons.1 hx with e | e
            · subst e
              rw [hv] at hf
              simp only [Option.some.injEq] at hf
              rw [← hf]
              exact r3 hgq
            · exact r4 x e f hf b' hb'
          · have back : r.1 = false → q.1 = false := by
              intro hr
              by_contra hc
              have := r1 (by simpa using hc)
              rw [hr] at this
              cases this
            intro f hf1 hf2 b' hb'
            by_cases hfq : f ∈ q.2
            · by_cases hfg : f = g
              · subst hfg
                rw [hb] at hb'
                simp only [Option.some.injEq] at hb'
                subst hb'
                refine ⟨q4.mono P r3, fun hr => a2 ?_⟩
                by_contra hc
                have := q1 (by simp [show a = true by simpa using hc])
                rw [back hr] at this
                cases this
              · obtain ⟨c1, c2⟩ := q5 f hfq (by simp [hfg, hf2]) b' hb'
                exact ⟨c1.mono P r3, fun hr => c2 (back hr)⟩
            · exact r5 f hf1 hfq b' hb'

theorem visitCalls_ok (hnp : ∀ f, P.named f = true → P.pragma f = true) (kr : ℕ) :
    ∀ k items s r, visitCalls P kr k items s = some r → VisOk P items s r := by
  intro k
  induction k with
  | zero => intro items s r h; cases h
  | succ k ih => exact visitScan_ok P hnp kr _ ih

/-- The decision is exactly this: a function with the pragma is called in the code reached through calls and
constructors with visible bodies. -/
theorem loopRandom_iff (hnp : ∀ f, P.named f = true → P.pragma f = true) (k : ℕ) (ls : List (RItem F)) (r : Bool)
    (h : loopRandom P k ls = some r) : r = true ↔ ∃ f, CallReach P true ls f ∧ P.pragma f = true := by
  unfold loopRandom at h
  obtain ⟨a, ha, h⟩ := Option.bind_eq_some_iff.1 h
  obtain ⟨q, hq, h⟩ := Option.bind_eq_some_iff.1 h
  obtain ⟨a1, a2⟩ := flagItems_ok P hnp k ls a ha
  obtain ⟨q1, q2, q3, q4, q5⟩ := visitCalls_ok P hnp k k ls _ q hq
  by_cases hqt : q.1 = true
  · rw [if_pos hqt] at h
    simp only [Option.some.injEq] at h
    subst h
    refine ⟨fun _ => ?_, fun _ => rfl⟩
    rcases q2 hqt with h | h
    · exact a1 h
    · exact h
  · rw [if_neg hqt] at h
    constructor
    · intro hr
      obtain ⟨f, h1, h2⟩ := (containsRandom_iff P k ls r h).1 hr
      exact ⟨f, h1.any P, h2.elim (hnp f) id⟩
    · rintro ⟨f, hf, hp⟩
      exfalso
      have hqf : q.1 = false := by simpa using hqt
      have haf : a = false := by
        by_contra hc
        exact hqt (q1 (by simpa using hc))
      have key : ∀ its f, CallReach P true its f → VClosed P q.2 its →
          (∀ g, .call g ∈ its → P.pragma g = false) → P.pragma f = false := by
        intro its f hr
        induction hr with
        | here its f hm => exact fun _ hc => hc f hm
        | call its b g f hm hb _ ih =>
          intro hv _
          obtain ⟨c1, c2⟩ := q5 g (hv _ hm g rfl b hb) (by simp) b hb
          exact ih c1 (c2 hqf)
        | ctor its b g f _ hm hb _ ih =>
          intro hv _
          obtain ⟨c1, c2⟩ := q5 g (hv _ hm g rfl b hb) (by simp) b hb
          exact ih c1 (c2 hqf)
      have := key ls f hf q4 (a2 haf)
      rw [this] at hp
      cases hp

variable [Fintype F]

theorem flagItems_some (k : ℕ) (hk : Fintype.card F < k) :
    ∀ items : List (RItem F), (flagItems P k items).isSome = true := by
  intro items
  induction items with
  | nil => rfl
  | cons it rest ih =>
    cases it with
    | ctor g => exact ih
    | hidden g => exact ih
    | call g =>
      unfold flagItems
      obtain ⟨d, hd⟩ := Option.isSome_iff_exists.1 ih
      rw [hd]
      by_cases hp : P.pragma g = true
      · rw [if_pos hp]; rfl
      · rw [if_neg hp]
        cases hb : P.body g with
        | none => rfl
        | some b =>
          obtain ⟨c, hc⟩ := Option.isSome_iff_exists.1 (containsRandom_some P k hk b)
          simp only [hc]
          rfl

theorem visitScan_some (kr k : ℕ) (hk : Fintype.card F < kr)
    (go : List (RItem F) → Bool × List F → Option (Bool × List F))
    (hgo : ∀ b s, notIn s.2 < k → ∃ r, go b s = some r ∧ s.2 ⊆ r.2) :
    ∀ items s, notIn s.2 < k + 1 → ∃ r, visitScan P kr go items s = some r ∧ s.2 ⊆ r.2 := by
  intro items
  induction items with
  | nil => exact fun s _ => ⟨s, rfl, List.Subset.refl _⟩
  | cons it rest ih =>
    intro s hs
    unfold visitScan
    cases hv : it.visited? with
    | none => exact ih s hs
    | some g =>
      dsimp only
      cases hb : P.body g with
      | none => exact ih s hs
      | some b =>
        dsimp only
        by_cases hm : g ∈ s.2
        · rw [if_pos hm]; exact ih s hs
        · rw [if_neg hm]
          obtain ⟨a, ha⟩ := Option.isSome_iff_exists.1 (flagItems_some P kr hk b)
          have hlt := notIn_cons hm
          obtain ⟨q, hq, hq2⟩ := hgo b (s.1 || a, g :: s.2) (by dsimp only; omega)
          have hle := notIn_mono hq2
          obtain ⟨r, hr, hr2⟩ := ih q (by dsimp only at hle; omega)
          refine ⟨r, ?_, fun x hx => hr2 (hq2 (by simp [hx]))⟩
          rw [ha]
          simp only [Option.bind_some, hq, hr]

theorem visitCalls_some (kr : ℕ) (hk : Fintype.card F < kr) :
    ∀ k items (s : Bool × List F), notIn s.2 < k → ∃ r, visitCalls P kr k items s = some r ∧ s.2 ⊆ r.2 := by
  intro k
  induction k with
  | zero => intro items s h; omega
  | succ k ih => exact visitScan_some P kr k hk _ ih

end

/-! ## The property -/

section

variable [DecidableEq F]

/-- **C105** The analysis ends for every program, also with recursive functions: the depth of the search is at most
the number of functions. -/
theorem C105_ends [Fintype F] (P : RProg F) (ls : List (RItem F)) (k : ℕ) (hk : Fintype.card F < k) :
    ∃ r, loopRandom P k ls = some r := by
  unfold loopRandom
  obtain ⟨a, ha⟩ := Option.isSome_iff_exists.1 (flagItems_some P k hk ls)
  have h0 : notIn ([] : List F) < k := lt_of_le_of_lt (Finset.card_le_univ _) hk
  obtain ⟨q, hq, _⟩ := visitCalls_some P k hk k ls (a, []) h0
  rw [ha]
  simp only [Option.bind_some, hq]
  by_cases hqt : q.1 = true
  · exact ⟨true, by rw [if_pos hqt]⟩
  · rw [if_neg hqt]
    exact Option.isSome_iff_exists.1 (containsRandom_some P k hk ls)

/-- Everything executed is a call in the text, and constructors have a visible body and are no generators. -/
def PlainItems (P : RProg F) (gen : F → Prop) (items : List (RItem F)) : Prop :=
  ∀ it ∈ items, match it with
    | .call _ => True
    | .ctor f => (∃ b, P.body f = some b) ∧ ¬gen f
    | .hidden _ => False

/-- What the user has to keep: generators are declared with the pragma (as `hila::random` and the Gaussian
generators are, random.h:60-79), so are functions without a visible body that may draw, and nothing else; the
visible bodies are what is executed. -/
structure RngMarked (P : RProg F) (gen : F → Prop) (run : F → List (RItem F)) : Prop where
  marked : ∀ f, gen f → P.pragma f = true
  named : ∀ f, P.named f = true → P.pragma f = true
  body : ∀ f b, P.body f = some b → run f = b
  noBody : ∀ f, P.body f = none → Draws gen run (run f) → P.pragma f = true
  honest : ∀ f, P.pragma f = true → gen f ∨ Draws gen run (run f)

omit [DecidableEq F] in
theorem draws_iff (P : RProg F) (gen : F → Prop) (run : F → List (RItem F)) (hm : RngMarked P gen run)
    (hpl : ∀ f b, P.body f = some b → PlainItems P gen b) (ls : List (RItem F)) (hls : PlainItems P gen ls) :
    Draws gen run ls ↔ ∃ f, CallReach P true ls f ∧ P.pragma f = true := by
  constructor
  · intro h
    induction h with
    | here items it hi hg =>
      cases it with
      | call f => exact ⟨f, .here _ _ hi, hm.marked f hg⟩
      | ctor f => exact absurd hg (hls _ hi).2
      | hidden f => exact (hls _ hi).elim
    | step items it hi hd ih =>
      cases it with
      | call f =>
        cases hb : P.body f with
        | none => exact ⟨f, .here _ _ hi, hm.noBody f hb hd⟩
        | some b =>
          have e : run (RItem.call f).target = b := hm.body f b hb
          rw [e] at ih
          obtain ⟨g, h1, h2⟩ := ih (hpl f b hb)
          exact ⟨g, .call _ b f g hi hb h1, h2⟩
      | ctor f =>
        obtain ⟨⟨b, hb⟩, _⟩ := hls _ hi
        have e : run (RItem.ctor f).target = b := hm.body f b hb
        rw [e] at ih
        obtain ⟨g, h1, h2⟩ := ih (hpl f b hb)
        exact ⟨g, .ctor _ b f g rfl hi hb h1, h2⟩
      | hidden f => exact (hls _ hi).elim
  · rintro ⟨f, hr, hp⟩
    clear hls
    induction hr with
    | here items f hi =>
      rcases hm.honest f hp with h | h
      · exact .here _ _ hi h
      · exact .step _ _ hi h
    | call items b g f hi hb _ ih =>
      refine .step _ _ hi ?_
      show Draws gen run (run g)
      rw [hm.body g b hb]
      exact ih hp
    | ctor items b g f _ hi hb _ ih =>
      refine .step _ _ hi ?_
      show Draws gen run (run g)
      rw [hm.body g b hb]
      exact ih hp

/-- **C105** (partial: of loops whose functions hide nothing, see the negations below) The loop is marked as one that
draws random numbers if and only if executing it may draw one, through functions and constructors of any depth,
also recursive ones. -/
theorem C105_found_partial (P : RProg F) (gen : F → Prop) (run : F → List (RItem F)) (hm : RngMarked P gen run)
    (hpl : ∀ f b, P.body f = some b → PlainItems P gen b) (ls : List (RItem F)) (hls : PlainItems P gen ls)
    (k : ℕ) (r : Bool) (h : loopRandom P k ls = some r) : r = true ↔ Draws gen run ls := by
  rw [draws_iff P gen run hm hpl ls hls]
  exact loopRandom_iff P hm.named k ls r h

/-- **C105** (partial as above) So a loop that draws random numbers is never run by several threads, and the other
loops are run so whenever nothing else stands against it. -/
theorem C105_parallel_partial (P : RProg F) (gen : F → Prop) (run : F → List (RItem F))
    (hm : RngMarked P gen run) (hpl : ∀ f b, P.body f = some b → PlainItems P gen b) (ls : List (RItem F))
    (hls : PlainItems P gen ls) (k : ℕ) (r : Bool) (h : loopRandom P k ls = some r) (openmp rv sel : Bool) :
    ompFor openmp r rv sel = true ↔ openmp = true ∧ rv = false ∧ sel = false ∧ ¬Draws gen run ls := by
  rw [← C105_found_partial P gen run hm hpl ls hls k r h]
  cases openmp <;> cases r <;> cases rv <;> cases sel <;> decide

/-- A program: the loop calls 0, which calls itself and 1; 1 constructs 2; the constructor calls the generator 3,
which has no visible body; 4 is another function. -/
def rngProg : RProg (Fin 5) where
  body f := if f = 0 then some [.call 0, .call 1] else if f = 1 then some [.call 4, .ctor 2]
    else if f = 2 then some [.call 3] else if f = 4 then some [.call 4] else none
  named f := f = 3
  pragma f := f = 3

def rngRun (f : Fin 5) : List (RItem (Fin 5)) := (rngProg.body f).getD []

example : RngMarked rngProg (· = 3) rngRun ∧ (∀ f b, rngProg.body f = some b → PlainItems rngProg (· = 3) b) ∧
    PlainItems rngProg (· = 3) [.call 4, .call 0] ∧ loopRandom rngProg 6 [.call 4, .call 0] = some true ∧
    loopRandom rngProg 6 [.call 4] = some false ∧ containsRandom rngProg 6 [.call 4, .call 0] = some false := by
  refine ⟨⟨fun f h => by simpa [rngProg] using h, fun f h => h, fun f b h => by simp [rngRun, h], ?_,
    fun f h => Or.inl (by simpa [rngProg] using h)⟩, ?_, ?_, by decide +kernel, by decide +kernel,
    by decide +kernel⟩
  · intro f hb hd
    have : rngRun f = [] := by simp [rngRun, hb]
    rw [this] at hd
    cases hd with
    | here _ _ h => simp at h
    | step _ _ h => simp at h
  · intro f b h
    rcases (by decide : ∀ f : Fin 5, f = 0 ∨ f = 1 ∨ f = 2 ∨ f = 3 ∨ f = 4) f with e | e | e | e | e <;> subst e <;>
      simp [rngProg] at h <;> subst h <;> intro it hi <;> simp at hi <;>
      (try rcases hi with hi | hi) <;> subst_vars <;> simp [rngProg]
  · intro it hi
    simp at hi
    rcases hi with hi | hi <;> subst hi <;> trivial

/-! ## What is hidden -/

/-- The class of 0 has a constructor with an initialiser, a default argument or a destructor that draws a random
number; its body is empty. -/
def initProg : RProg (Fin 2) where
  body f := if f = 0 then some [] else none
  named f := f = 1
  pragma f := f = 1

/-- What the constructor 0 executes. -/
def initRun (f : Fin 2) : List (RItem (Fin 2)) := if f = 0 then [.hidden 1] else []

/-- **C105** (negation) A random number drawn in an initialiser of a constructor is not found, whatever the depth of
the search: the loop draws random numbers and is still run by several threads at once. -/
theorem C105_initialiser_wrong (k : ℕ) :
    Draws (· = 1) initRun [.ctor (0 : Fin 2)] ∧ loopRandom initProg (k + 2) [.ctor 0] = some false ∧
    ompFor true false false false = true := by
  refine ⟨.step _ (.ctor 0) (by simp) (.here _ (.hidden 1) (by simp [initRun, RItem.target]) rfl), rfl, rfl⟩

/-- A constructor that is declared with the pragma; its body is in another file. -/
def markedProg : RProg (Fin 2) where
  body _ := none
  named f := f = 1
  pragma _ := true

/-- What the constructor 0 executes. -/
def markedRun (f : Fin 2) : List (RItem (Fin 2)) := if f = 0 then [.call 1] else []

/-- **C105** (negation) The pragma is ignored for constructors: the loop constructs an object with a constructor
declared with `#pragma hila contains_rng`, as it must be, and is still run by several threads. A function with the
same declaration is found. -/
theorem C105_marked_ctor_wrong (k : ℕ) :
    RngMarked markedProg (fun f => f = 1) markedRun ∧
    Draws (· = 1) markedRun [.ctor (0 : Fin 2)] ∧ loopRandom markedProg (k + 1) [.ctor 0] = some false ∧
    loopRandom markedProg (k + 1) [.call 0] = some true := by
  have hd : Draws (· = 1) markedRun (markedRun 0) :=
    .here _ (.call 1) (by simp [markedRun]) rfl
  refine ⟨⟨fun _ _ => rfl, fun _ _ => rfl, fun f b h => by simp [markedProg] at h,
    fun _ _ _ => rfl, fun f _ => ?_⟩,
    .step _ (.ctor 0) (by simp) hd, rfl, rfl⟩
  rcases (by decide : ∀ f : Fin 2, f = 0 ∨ f = 1) f with e | e
  · subst e; exact Or.inr hd
  · exact Or.inl e

end

end Hila
