import Verif.Lemmas.LoopBody
import Mathlib.Algebra.Order.Group.Nat

/-!
# The generated code of a loop body does what the body says
-/

namespace Hila
namespace Body

variable {F V : Type}

/-- Two states that agree on the fields in `K` and on everything else that is not a field. -/
def Agree (K : F → Prop) (s s' : State F V) : Prop :=
  (∀ f, K f → s.fld f = s'.fld f) ∧ s.loc = s'.loc ∧ s.out = s'.out

/-- Both runs undefined, or both defined with states that agree. -/
def Same (K : F → Prop) : Option (Bool × State F V) → Option (Bool × State F V) → Prop
  | none, none => True
  | some r, some r' => r.1 = r'.1 ∧ Agree K r.2 r'.2
  | _, _ => False

theorem Expr.eval_congr (env : ℕ → V) (s s' : State F V) (e : Expr F V)
    (hl : s.loc = s'.loc) (hf : ∀ f ∈ e.reads, s.fld f = s'.fld f) :
    e.eval env s = e.eval env s' := by
  induction e with
  | lit v => rfl
  | env v => rfl
  | loc v => simp only [Expr.eval, hl]
  | fld f => exact hf f (by simp [Expr.reads])
  | op g a b iha ihb =>
    simp only [Expr.reads, List.mem_append] at hf
    simp only [Expr.eval, iha fun f h => hf f (Or.inl h), ihb fun f h => hf f (Or.inr h)]
  | table g dep i ih => simp only [Expr.eval, ih hf]
  | cond dep test x a b ihx iha ihb =>
    simp only [Expr.reads, List.mem_append] at hf
    simp only [Expr.eval, ihx fun f h => hf f (Or.inl h), iha fun f h => hf f (Or.inr (Or.inl h)),
      ihb fun f h => hf f (Or.inr (Or.inr h))]

theorem Agree.set [DecidableEq F] {K K' : F → Prop} {s s' : State F V} (h : Agree K s s') (f : F)
    (v : Option V) (hK : ∀ g, K' g → g ≠ f → K g) :
    Agree K' { s with fld := Function.update s.fld f v }
      { s' with fld := Function.update s'.fld f v } := by
  refine ⟨fun g hg => ?_, h.2.1, h.2.2⟩
  by_cases e : g = f
  · subst e; simp
  · simp only [Function.update_of_ne e]; exact h.1 g (hK g hg e)

/-- Assignment, update, local variable, reduction vector: agreement on what is read is enough. -/
theorem same_assign [DecidableEq F] (env : ℕ → V) {K K' : F → Prop} {s s' : State F V}
    (h : Agree K s s') (f : F) (e : Expr F V) (hr : ∀ g ∈ e.reads, s.fld g = s'.fld g)
    (hK : ∀ g, K' g → g ≠ f → K g) :
    Same K' ((Stmt.assign f e).exec env s) ((Stmt.assign f e).exec env s') := by
  simp only [Stmt.exec, e.eval_congr env s s' h.2.1 hr]
  cases e.eval env s' with
  | none => trivial
  | some v => exact ⟨rfl, h.set f _ hK⟩

theorem same_update [DecidableEq F] (env : ℕ → V) {K K' : F → Prop} {s s' : State F V}
    (h : Agree K s s') (f : F) (g : V → V → V) (e : Expr F V)
    (hr : ∀ g ∈ e.reads, s.fld g = s'.fld g) (hf : s.fld f = s'.fld f)
    (hK : ∀ g, K' g → g ≠ f → K g) :
    Same K' ((Stmt.update f g e).exec env s) ((Stmt.update f g e).exec env s') := by
  simp only [Stmt.exec, e.eval_congr env s s' h.2.1 hr, hf]
  cases e.eval env s' with
  | none => trivial
  | some v =>
    cases s'.fld f with
    | none => trivial
    | some w => exact ⟨rfl, h.set f _ hK⟩

theorem same_setLoc [DecidableEq F] (env : ℕ → V) {K K' : F → Prop} {s s' : State F V}
    (h : Agree K s s') (k : ℕ) (e : Expr F V) (hr : ∀ g ∈ e.reads, s.fld g = s'.fld g)
    (hK : ∀ g, K' g → K g) :
    Same K' ((Stmt.setLoc k e).exec env s) ((Stmt.setLoc k e).exec env s') := by
  simp only [Stmt.exec, e.eval_congr env s s' h.2.1 hr]
  cases e.eval env s' with
  | none => trivial
  | some v =>
    refine ⟨rfl, fun g hg => h.1 g (hK g hg), ?_, h.2.2⟩
    simp only [h.2.1]

theorem same_binAdd [DecidableEq F] (env : ℕ → V) {K K' : F → Prop} {s s' : State F V}
    (h : Agree K s s') (i e : Expr F V) (hi : ∀ g ∈ i.reads, s.fld g = s'.fld g)
    (hr : ∀ g ∈ e.reads, s.fld g = s'.fld g) (hK : ∀ g, K' g → K g) :
    Same K' ((Stmt.binAdd i e).exec env s) ((Stmt.binAdd i e).exec env s') := by
  simp only [Stmt.exec, e.eval_congr env s s' h.2.1 hr, i.eval_congr env s s' h.2.1 hi]
  cases i.eval env s' with
  | none => trivial
  | some x =>
    cases e.eval env s' with
    | none => trivial
    | some v =>
      refine ⟨rfl, fun g hg => h.1 g (hK g hg), h.2.1, ?_⟩
      simp only [h.2.2]

theorem loopRun_same [DecidableEq F] {K : F → Prop} {c : State F V → Option Bool}
    {b : State F V → Option (Bool × State F V)}
    (hc : ∀ s s', Agree K s s' → c s = c s') (hb : ∀ s s', Agree K s s' → Same K (b s) (b s'))
    (n : ℕ) (s s' : State F V) (h : Agree K s s') :
    Same K (loopRun c b n s) (loopRun c b n s') := by
  induction n generalizing s s' with
  | zero => exact ⟨rfl, h⟩
  | succ n ih =>
    simp only [loopRun, hc s s' h]
    cases c s' with
    | none => trivial
    | some v =>
      simp only [Option.bind_some]
      cases v with
      | false => exact ⟨rfl, h⟩
      | true =>
        have hb' := hb s s' h
        simp only [if_true]
        match h1 : b s, h2 : b s', hb' with
        | none, none, _ => trivial
        | some r, some r', hb' =>
          exact ih _ _ hb'.2

/-- Running a statement depends only on the fields it reads or assigns to. -/
theorem Stmt.exec_congr [DecidableEq F] (env : ℕ → V) (K : F → Prop) (st : Stmt F V)
    (hr : ∀ f ∈ st.reads, K f) (hw : ∀ f ∈ st.writes, K f) (s s' : State F V) (h : Agree K s s') :
    Same K (st.exec env s) (st.exec env s') := by
  induction st generalizing s s' with
  | assign f e => exact same_assign env h f e (fun g hg => h.1 g (hr g hg)) fun g hg _ => hg
  | update f g e =>
    exact same_update env h f g e (fun g hg => h.1 g (hr g (by simp [Stmt.reads, hg])))
      (h.1 f (hw f (by simp [Stmt.writes]))) fun g hg _ => hg
  | setLoc k e => exact same_setLoc env h k e (fun g hg => h.1 g (hr g hg)) fun g hg => hg
  | binAdd i e =>
    exact same_binAdd env h i e (fun g hg => h.1 g (hr g (by simp [Stmt.reads, hg])))
      (fun g hg => h.1 g (hr g (by simp [Stmt.reads, hg]))) fun g hg => hg
  | andAssign test x f e =>
    simp only [Stmt.reads, List.mem_append] at hr
    have ha := same_assign env h f e (fun g hg => h.1 g (hr g (Or.inr hg))) fun g hg _ => hg
    simp only [Stmt.exec] at ha ⊢
    rw [x.eval_congr env s s' h.2.1 fun g hg => h.1 g (hr g (Or.inl hg))]
    cases x.eval env s' with
    | none => trivial
    | some v =>
      simp only [Option.bind_some]
      split
      · exact ha
      · exact ⟨rfl, h⟩
  | ite dep test x a b iha ihb =>
    simp only [Stmt.reads, Stmt.writes, List.mem_append] at hr hw
    simp only [Stmt.exec]
    rw [x.eval_congr env s s' h.2.1 fun g hg => h.1 g (hr g (Or.inl hg))]
    cases x.eval env s' with
    | none => trivial
    | some v =>
      simp only [Option.bind_some]
      split
      · exact iha (fun f hf => hr f (Or.inr (Or.inl hf))) (fun f hf => hw f (Or.inl hf)) s s' h
      · exact ihb (fun f hf => hr f (Or.inr (Or.inr hf))) (fun f hf => hw f (Or.inr hf)) s s' h
  | loop n dep test x a iha =>
    simp only [Stmt.reads, List.mem_append] at hr
    simp only [Stmt.exec]
    refine loopRun_same (fun s s' h => ?_)
      (fun s s' h => iha (fun f hf => hr f (Or.inr hf)) hw s s' h) n s s' h
    rw [x.eval_congr env s s' h.2.1 fun g hg => h.1 g (hr g (Or.inl hg))]
  | cont => exact ⟨rfl, h⟩
  | skip => exact ⟨rfl, h⟩
  | seq a b iha ihb =>
    simp only [Stmt.reads, Stmt.writes, List.mem_append] at hr hw
    simp only [Stmt.exec]
    have ha := iha (fun f hf => hr f (Or.inl hf)) (fun f hf => hw f (Or.inl hf)) s s' h
    match h1 : a.exec env s, h2 : a.exec env s', ha with
    | none, none, _ => trivial
    | some r, some r', ha =>
      simp only [Option.bind_some, ha.1]
      split
      · exact ⟨ha.1, ha.2⟩
      · exact ihb (fun f hf => hr f (Or.inr hf)) (fun f hf => hw f (Or.inr hf)) _ _ ha.2
  | block a ih => exact ih hr hw s s' h

/-! ### Fields that are not assigned to; defined fields stay defined -/

theorem loopRun_pres {S : Type} {c : S → Option Bool} {b : S → Option (Bool × S)} (P : S → S → Prop)
    (hrefl : ∀ s, P s s) (htrans : ∀ a b c, P a b → P b c → P a c)
    (hb : ∀ s r, b s = some r → P s r.2) (n : ℕ) (s : S) (r : Bool × S)
    (h : loopRun c b n s = some r) : P s r.2 ∧ r.1 = false := by
  induction n generalizing s with
  | zero => simp only [loopRun, Option.some.injEq] at h; subst h; exact ⟨hrefl _, rfl⟩
  | succ n ih =>
    simp only [loopRun] at h
    cases hc : c s with
    | none => simp [hc] at h
    | some v =>
      cases v with
      | false =>
        simp only [hc, Option.bind_some, Bool.false_eq_true, if_false, Option.some.injEq] at h
        subst h; exact ⟨hrefl _, rfl⟩
      | true =>
        simp only [hc, Option.bind_some, if_true] at h
        cases hbs : b s with
        | none => simp [hbs] at h
        | some r' =>
          simp only [hbs, Option.bind_some] at h
          obtain ⟨h1, h2⟩ := ih _ h
          exact ⟨htrans _ _ _ (hb s r' hbs) h1, h2⟩

/-- A run changes assigned fields only, gives them values, and says "continue" only if the statement
contains one. -/
theorem Stmt.exec_fields [DecidableEq F] (env : ℕ → V) (st : Stmt F V) (s : State F V)
    (r : Bool × State F V) (h : st.exec env s = some r) :
    ((∀ f, f ∉ st.writes → r.2.fld f = s.fld f) ∧
      (∀ f, (s.fld f).isSome → (r.2.fld f).isSome)) ∧ (r.1 = true → st.continues = true) := by
  induction st generalizing s r with
  | assign f e =>
    simp only [Stmt.exec] at h
    cases he : e.eval env s with
    | none => simp [he] at h
    | some v =>
      simp only [he, Option.bind_some, Option.some.injEq] at h
      subst h
      refine ⟨⟨fun g hg => ?_, fun g hg => ?_⟩, by simp⟩
      · exact Function.update_of_ne (by simpa [Stmt.writes] using hg) _ _
      · by_cases e : g = f
        · subst e; simp
        · simpa only [Function.update_of_ne e] using hg
  | update f gg e =>
    simp only [Stmt.exec] at h
    cases he : e.eval env s with
    | none => simp [he] at h
    | some v =>
      cases hf : s.fld f with
      | none => simp [he, hf] at h
      | some w =>
        simp only [he, hf, Option.bind_some, Option.some.injEq] at h
        subst h
        refine ⟨⟨fun g hg => ?_, fun g hg => ?_⟩, by simp⟩
        · exact Function.update_of_ne (by simpa [Stmt.writes] using hg) _ _
        · by_cases e : g = f
          · subst e; simp
          · simpa only [Function.update_of_ne e] using hg
  | setLoc k e =>
    simp only [Stmt.exec] at h
    cases he : e.eval env s with
    | none => simp [he] at h
    | some v =>
      simp only [he, Option.bind_some, Option.some.injEq] at h
      subst h
      exact ⟨⟨fun _ _ => rfl, fun _ hg => hg⟩, by simp⟩
  | binAdd i e =>
    simp only [Stmt.exec] at h
    cases hi : i.eval env s with
    | none => simp [hi] at h
    | some x =>
      cases he : e.eval env s with
      | none => simp [hi, he] at h
      | some v =>
        simp only [hi, he, Option.bind_some, Option.some.injEq] at h
        subst h
        exact ⟨⟨fun _ _ => rfl, fun _ hg => hg⟩, by simp⟩
  | andAssign test x f e =>
    simp only [Stmt.exec] at h
    cases hx : x.eval env s with
    | none => simp [hx] at h
    | some v =>
      simp only [hx, Option.bind_some] at h
      split at h
      · cases he : e.eval env s with
        | none => simp [he] at h
        | some v =>
          simp only [he, Option.bind_some, Option.some.injEq] at h
          subst h
          refine ⟨⟨fun g hg => ?_, fun g hg => ?_⟩, by simp⟩
          · exact Function.update_of_ne (by simpa [Stmt.writes] using hg) _ _
          · by_cases e : g = f
            · subst e; simp
            · simpa only [Function.update_of_ne e] using hg
      · simp only [Option.some.injEq] at h
        subst h
        exact ⟨⟨fun _ _ => rfl, fun _ hg => hg⟩, by simp⟩
  | ite dep test x a b iha ihb =>
    simp only [Stmt.exec] at h
    cases hx : x.eval env s with
    | none => simp [hx] at h
    | some v =>
      simp only [hx, Option.bind_some] at h
      simp only [Stmt.writes, List.mem_append, not_or, Stmt.continues, Bool.or_eq_true]
      split at h
      · obtain ⟨⟨h1, h2⟩, h3⟩ := iha s r h
        exact ⟨⟨fun f hf => h1 f hf.1, h2⟩, fun hr => Or.inl (h3 hr)⟩
      · obtain ⟨⟨h1, h2⟩, h3⟩ := ihb s r h
        exact ⟨⟨fun f hf => h1 f hf.2, h2⟩, fun hr => Or.inr (h3 hr)⟩
  | loop n dep test x a iha =>
    simp only [Stmt.exec] at h
    have := loopRun_pres (fun s s' : State F V => (∀ f, f ∉ a.writes → s'.fld f = s.fld f) ∧
      (∀ f, (s.fld f).isSome → (s'.fld f).isSome)) (fun s => ⟨fun _ _ => rfl, fun _ hg => hg⟩)
      (fun p q t h h' => ⟨fun f hf => (h'.1 f hf).trans (h.1 f hf), fun f hf => h'.2 f (h.2 f hf)⟩)
      (fun s r hr => (iha s r hr).1) n s r h
    exact ⟨this.1, fun h => by simp [this.2] at h⟩
  | cont =>
    simp only [Stmt.exec, Option.some.injEq] at h
    subst h
    exact ⟨⟨fun _ _ => rfl, fun _ hg => hg⟩, fun _ => rfl⟩
  | skip =>
    simp only [Stmt.exec, Option.some.injEq] at h
    subst h
    exact ⟨⟨fun _ _ => rfl, fun _ hg => hg⟩, by simp⟩
  | seq a b iha ihb =>
    simp only [Stmt.exec] at h
    simp only [Stmt.writes, List.mem_append, not_or, Stmt.continues, Bool.or_eq_true]
    cases ha : a.exec env s with
    | none => simp [ha] at h
    | some q =>
      simp only [ha, Option.bind_some] at h
      obtain ⟨⟨h1, h2⟩, h3⟩ := iha s q ha
      split at h
      · simp only [Option.some.injEq] at h
        subst h
        exact ⟨⟨fun f hf => h1 f hf.1, h2⟩, fun hr => Or.inl (h3 hr)⟩
      · obtain ⟨⟨g1, g2⟩, g3⟩ := ihb q.2 r h
        exact ⟨⟨fun f hf => (g1 f hf.2).trans (h1 f hf.1), fun f hf => g2 f (h2 f hf)⟩,
          fun hr => Or.inr (g3 hr)⟩
  | block a ih => exact ih s r h

/-- If assignments come after `continue`, a run that continues has not changed any field. -/
theorem Stmt.exec_continue [DecidableEq F] (env : ℕ → V) (st : Stmt F V) (hst : st.continuesFirst)
    (s : State F V) (r : Bool × State F V) (h : st.exec env s = some r) (hr : r.1 = true) :
    r.2.fld = s.fld := by
  induction st generalizing s r with
  | cont => simp only [Stmt.exec, Option.some.injEq] at h; subst h; rfl
  | ite dep test x a b iha ihb =>
    simp only [Stmt.exec] at h
    cases hx : x.eval env s with
    | none => simp [hx] at h
    | some v =>
      simp only [hx, Option.bind_some] at h
      split at h
      · exact iha hst.1 s r h hr
      · exact ihb hst.2 s r h hr
  | seq a b iha ihb =>
    simp only [Stmt.exec] at h
    cases ha : a.exec env s with
    | none => simp [ha] at h
    | some q =>
      simp only [ha, Option.bind_some] at h
      split at h
      · simp only [Option.some.injEq] at h
        subst h
        exact iha hst.1 s q ha hr
      · have hb := ihb hst.2.1 q.2 r h hr
        have hw := hst.2.2 ((b.exec_fields env q.2 r h).2 hr)
        rw [hb]
        funext f
        exact (a.exec_fields env s q ha).1.1 f (by simp [hw])
  | block a ih => exact ih hst s r h hr
  | assign f e => exact absurd ((Stmt.exec_fields env _ s r h).2 hr) (by simp [Stmt.continues])
  | update f g e => exact absurd ((Stmt.exec_fields env _ s r h).2 hr) (by simp [Stmt.continues])
  | setLoc f e => exact absurd ((Stmt.exec_fields env _ s r h).2 hr) (by simp [Stmt.continues])
  | binAdd f e => exact absurd ((Stmt.exec_fields env _ s r h).2 hr) (by simp [Stmt.continues])
  | andAssign t x f e => exact absurd ((Stmt.exec_fields env _ s r h).2 hr) (by simp [Stmt.continues])
  | loop n d t x a ih => exact absurd ((Stmt.exec_fields env _ s r h).2 hr) (by simp [Stmt.continues])
  | skip => exact absurd ((Stmt.exec_fields env _ s r h).2 hr) (by simp [Stmt.continues])

/-! ### Flags -/

/-- The traversal never takes a flag back, and keeps "site dependent" below "has a conditional" as long as
there is no site dependent index. -/
theorem Expr.trav_flags (e : Expr F V) (t : Trav F) (hl : e.lookups = false)
    (hi : t.siteDep = true → t.hasCond = true) :
    ((e.trav t).siteDep = true → (e.trav t).hasCond = true) ∧
      (t.hasCond = true ∨ e.branches = true → (e.trav t).hasCond = true) := by
  induction e generalizing t with
  | lit v => simpa [Expr.trav, Trav.visit, Trav.leave, Expr.branches] using hi
  | env v => simpa [Expr.trav, Trav.visit, Trav.leave, Expr.branches] using hi
  | loc v => simpa [Expr.trav, Trav.visit, Trav.leave, Expr.branches] using hi
  | fld v => simpa [Expr.trav, Trav.visit, Trav.leave, Trav.addRef, Expr.branches] using hi
  | op g a b iha ihb =>
    simp only [Expr.lookups, Bool.or_eq_false_iff] at hl
    have h1 := iha t.visit hl.1 hi
    have h2 := ihb (a.trav t.visit) hl.2 h1.1
    refine ⟨h2.1, ?_⟩
    simp only [Expr.branches, Bool.or_eq_true]
    rintro (h | h | h)
    · exact h2.2 (Or.inl (h1.2 (Or.inl h)))
    · exact h2.2 (Or.inl (h1.2 (Or.inr h)))
    · exact h2.2 (Or.inr h)
  | table g dep i ih =>
    simp only [Expr.lookups, Bool.or_eq_false_iff] at hl
    have h1 := ih (t.visit.mark dep) hl.2
      (by simpa [hl.1, Trav.visit, Trav.mark] using hi)
    exact h1
  | cond dep test x a b ihx iha ihb =>
    simp only [Expr.lookups, Bool.or_eq_false_iff] at hl
    have h1 := ihx t.visit.visit hl.1 hi
    have h2 := iha _ hl.2.1 h1.1
    have h3 := ihb _ hl.2.2 h2.1
    have hc : (Expr.trav (.cond dep test x a b) t).hasCond = true := by
      simp only [Expr.trav, Trav.leave, Trav.endCond, Bool.or_eq_true, Bool.not_eq_true']
      by_cases h : (b.trav (a.trav (x.trav t.visit.visit))).siteDep = true
      · exact Or.inl (h3.1 h)
      · exact Or.inr (by simpa using h)
    exact ⟨fun _ => hc, fun _ => hc⟩

theorem travAssign_flags (f : F) (c : Bool) (e : Expr F V) (t : Trav F) (hl : e.lookups = false)
    (hi : t.siteDep = true → t.hasCond = true) :
    ((travAssign f c e t).siteDep = true → (travAssign f c e t).hasCond = true) ∧
      (t.hasCond = true ∨ e.branches = true → (travAssign f c e t).hasCond = true) :=
  e.trav_flags ((t.visit.visit.addRef f true c).leave) hl hi

theorem Stmt.trav_flags (s : Stmt F V) (t : Trav F) (hl : s.lookups = false)
    (hi : t.siteDep = true → t.hasCond = true) :
    ((s.trav t).siteDep = true → (s.trav t).hasCond = true) ∧
      (t.hasCond = true ∨ s.branches = true → (s.trav t).hasCond = true) := by
  induction s generalizing t with
  | assign f e => exact travAssign_flags f false e t hl hi
  | update f g e => exact travAssign_flags f true e t hl hi
  | setLoc k e => exact e.trav_flags t.visit hl hi
  | binAdd i e => simp [Stmt.lookups] at hl
  | andAssign test x f e =>
    simp only [Stmt.lookups, Bool.or_eq_false_iff] at hl
    have h1 := x.trav_flags t.visit hl.1 hi
    have h2 := travAssign_flags f false e (x.trav t.visit) hl.2 h1.1
    refine ⟨h2.1, ?_⟩
    simp only [Stmt.branches, Bool.or_eq_true]
    rintro (h | h | h)
    · exact h2.2 (Or.inl (h1.2 (Or.inl h)))
    · exact h2.2 (Or.inl (h1.2 (Or.inr h)))
    · exact h2.2 (Or.inr h)
  | ite dep test x a b iha ihb =>
    simp only [Stmt.lookups, Bool.or_eq_false_iff] at hl
    have h1 := x.trav_flags t.visit.visit hl.1 hi
    have h2 := iha _ hl.2.1 h1.1
    have h3 := ihb _ hl.2.2 h2.1
    have hc : (Stmt.trav (.ite dep test x a b) t).hasCond = true := by
      simp only [Stmt.trav, Trav.leave, Trav.endCond, Bool.or_eq_true, Bool.not_eq_true']
      by_cases h : (b.trav (a.trav (x.trav t.visit.visit))).siteDep = true
      · exact Or.inl (h3.1 h)
      · exact Or.inr (by simpa using h)
    exact ⟨fun _ => hc, fun _ => hc⟩
  | loop n dep test x a iha =>
    simp only [Stmt.lookups, Bool.or_eq_false_iff] at hl
    have h1 := x.trav_flags t.visit.visit hl.1 hi
    have h2 := iha _ hl.2 h1.1
    have hc : (Stmt.trav (.loop n dep test x a) t).hasCond = true := by
      simp only [Stmt.trav, Trav.leave, Trav.endCond, Bool.or_eq_true, Bool.not_eq_true']
      by_cases h : (a.trav (x.trav t.visit.visit)).siteDep = true
      · exact Or.inl (h2.1 h)
      · exact Or.inr (by simpa using h)
    exact ⟨fun _ => hc, fun _ => hc⟩
  | cont => simpa [Stmt.trav, Trav.visit, Trav.leave, Stmt.branches] using hi
  | skip => simpa [Stmt.trav, Stmt.branches] using hi
  | seq a b iha ihb =>
    simp only [Stmt.lookups, Bool.or_eq_false_iff] at hl
    have h1 := iha t hl.1 hi
    have h2 := ihb (a.trav t) hl.2 h1.1
    refine ⟨h2.1, ?_⟩
    simp only [Stmt.branches, Bool.or_eq_true]
    rintro (h | h | h)
    · exact h2.2 (Or.inl (h1.2 (Or.inl h)))
    · exact h2.2 (Or.inl (h1.2 (Or.inr h)))
    · exact h2.2 (Or.inr h)
  | block a ih => exact ih t.visit.top hl hi

/-! ### Bodies without branches -/

theorem Trav.visit_seq (t : Trav F) (hd : 1 ≤ t.depth) : t.visit.seq = t.seq := by
  simp [Trav.visit]; omega

/-- Without `?:` all references of an expression carry the number of the statement. -/
theorem Expr.trav_straight (e : Expr F V) (t : Trav F) (hb : e.branches = false) (hd : 1 ≤ t.depth) :
    (e.trav t).depth = t.depth ∧ (e.trav t).seq = t.seq ∧
      ∃ l : List (Ref F), (e.trav t).refs = t.refs ++ l ∧ (∀ p ∈ l, p.seq = t.seq) := by
  induction e generalizing t with
  | lit v =>
    exact ⟨by simp [Expr.trav, Trav.visit, Trav.leave], t.visit_seq hd, [],
      by simp [Expr.trav, Trav.visit, Trav.leave], by simp⟩
  | env v =>
    exact ⟨by simp [Expr.trav, Trav.visit, Trav.leave], t.visit_seq hd, [],
      by simp [Expr.trav, Trav.visit, Trav.leave], by simp⟩
  | loc v =>
    exact ⟨by simp [Expr.trav, Trav.visit, Trav.leave], t.visit_seq hd, [],
      by simp [Expr.trav, Trav.visit, Trav.leave], by simp⟩
  | fld f =>
    exact ⟨by simp [Expr.trav, Trav.visit, Trav.leave, Trav.addRef],
      t.visit_seq hd, [⟨f, false, true, t.visit.seq⟩],
      by simp [Expr.trav, Trav.visit, Trav.leave, Trav.addRef],
      by simp [t.visit_seq hd]⟩
  | op g a b iha ihb =>
    simp only [Expr.branches, Bool.or_eq_false_iff] at hb
    have d1 : t.visit.depth = t.depth + 1 := rfl
    have hv := t.visit_seq hd
    obtain ⟨a1, a2, la, a3, a4⟩ := iha t.visit hb.1 (by omega)
    obtain ⟨b1, b2, lb, b3, b4⟩ := ihb (a.trav t.visit) hb.2 (by omega)
    refine ⟨?_, ?_, la ++ lb, ?_, ?_⟩
    · simp only [Expr.trav, Trav.leave, b1, a1, d1]; omega
    · simp only [Expr.trav, Trav.leave, b2, a2, hv]
    · simp only [Expr.trav, Trav.leave, b3, a3]; simp [Trav.visit]
    · intro p hp
      rcases List.mem_append.1 hp with h | h
      · rw [a4 p h, hv]
      · rw [b4 p h, a2, hv]
  | table g dep i ih =>
    obtain ⟨a1, a2, la, a3, a4⟩ := ih (t.visit.mark dep) hb
      (by simp [Trav.visit, Trav.mark])
    have hv : (t.visit.mark dep).seq = t.seq := t.visit_seq hd
    refine ⟨?_, ?_, la, ?_, ?_⟩
    · simp only [Expr.trav, Trav.leave, a1]; simp [Trav.visit, Trav.mark]
    · simp only [Expr.trav, Trav.leave, a2, hv]
    · simp only [Expr.trav, Trav.leave, a3]; simp [Trav.visit, Trav.mark]
    · intro p hp
      rw [a4 p hp]; exact hv
  | cond dep test x a b ihx iha ihb => simp [Expr.branches] at hb

/-- In the references of one statement, a read counts unless an earlier statement assigned to the
field. -/
theorem read_counts [DecidableEq F] (A l rest : List (Ref F)) (n : ℕ) (hl : ∀ p ∈ l, p.seq = n) (f : F)
    (h : ∃ p ∈ l, p.fld = f ∧ p.read = true) :
    (fieldInfo (A ++ l ++ rest) f).readX = true ∨ ∃ q ∈ A, q.fld = f ∧ q.written = true := by
  obtain ⟨p, hp, rfl, hr⟩ := h
  by_cases hA : ∃ q ∈ A, q.fld = p.fld ∧ q.written = true
  · exact Or.inr hA
  · left
    obtain ⟨l1, l2, rfl⟩ := List.append_of_mem hp
    have := fieldInfo_readX (A ++ l1) (l2 ++ rest) p hr (by
      intro q hq e w
      simp only [List.append_assoc, List.mem_append, List.mem_singleton] at hq
      rcases hq with h | h | h
      · exact absurd ⟨q, h, e, w⟩ hA
      · exact ((hl q (by simp [h])).trans (hl p hp).symm).ge
      · exact h ▸ le_refl _)
    simpa using this

/-- The fields on which the generated code agrees with the source after the references `A`: those loaded
before the body and those assigned to. -/
def Known [DecidableEq F] (R A : List (Ref F)) (f : F) : Prop :=
  (fieldInfo R f).readX = true ∨ ∃ q ∈ A, q.fld = f ∧ q.written = true

/-- One statement without branches. -/
theorem Stmt.straight_step [DecidableEq F] (env : ℕ → V) (st : Stmt F V) (hb : st.branches = false)
    (hs : st.shortcuts = false) (hc : st.continues = false) (t : Trav F) (hd : t.depth = 0)
    (R rest : List (Ref F)) (hR : R = (st.trav t).refs ++ rest) (s s' : State F V)
    (h : Agree (Known R t.refs) s s') :
    (st.trav t).depth = 0 ∧ Same (Known R (st.trav t).refs) (st.exec env s) (st.exec env s') := by
  induction st generalizing t s s' R rest with
  | assign f e =>
    have hv : (t.visit.visit.addRef f true false).leave.depth = 1 := by
      simp [Trav.visit, Trav.leave, Trav.addRef, hd]
    have hq : (t.visit.visit.addRef f true false).leave.seq = t.seq + 1 := by
      simp [Trav.visit, Trav.leave, Trav.addRef, hd]
    obtain ⟨a1, a2, l, a3, a4⟩ := e.trav_straight _ hb hv.ge
    obtain ⟨l', b3, b4, b5⟩ := e.trav_refs ((t.visit.visit.addRef f true false).leave)
    have hll : l' = l := List.append_cancel_left (b3.symm.trans a3)
    subst hll
    have hrefs : ((Stmt.assign f e).trav t).refs = t.refs ++ (⟨f, true, false, t.seq + 1⟩ :: l') := by
      simp only [Stmt.trav, travAssign, Trav.leave] at a3 ⊢
      rw [a3]; simp [Trav.visit, Trav.addRef, hd]
    refine ⟨?_, same_assign env h f e ?_ ?_⟩
    · show (e.trav _).depth - 1 = 0
      rw [a1, hv]
    · intro g hg
      refine h.1 g ?_
      obtain ⟨p, hp, e1, e2⟩ := b5 g hg
      rw [hR, hrefs]
      exact read_counts _ _ _ (t.seq + 1) (by
        intro p hp
        rcases List.mem_cons.1 hp with rfl | hp
        · rfl
        · rw [a4 p hp, hq]) g ⟨p, by simp [hp], e1, e2⟩
    · rintro g (hg | ⟨q, hq, e1, e2⟩) hne
      · exact Or.inl hg
      · rw [hrefs] at hq
        rcases List.mem_append.1 hq with hq | hq
        · exact Or.inr ⟨q, hq, e1, e2⟩
        · rcases List.mem_cons.1 hq with rfl | hq
          · exact absurd e1.symm hne
          · rw [b4 q hq] at e2; exact absurd e2 (by simp)
  | update f gg e =>
    have hv : (t.visit.visit.addRef f true true).leave.depth = 1 := by
      simp [Trav.visit, Trav.leave, Trav.addRef, hd]
    have hq : (t.visit.visit.addRef f true true).leave.seq = t.seq + 1 := by
      simp [Trav.visit, Trav.leave, Trav.addRef, hd]
    obtain ⟨a1, a2, l, a3, a4⟩ := e.trav_straight _ hb hv.ge
    obtain ⟨l', b3, b4, b5⟩ := e.trav_refs ((t.visit.visit.addRef f true true).leave)
    have hll : l' = l := List.append_cancel_left (b3.symm.trans a3)
    subst hll
    have hrefs : ((Stmt.update f gg e).trav t).refs = t.refs ++ (⟨f, true, true, t.seq + 1⟩ :: l') := by
      simp only [Stmt.trav, travAssign, Trav.leave] at a3 ⊢
      rw [a3]; simp [Trav.visit, Trav.addRef, hd]
    have hsq : ∀ p ∈ (⟨f, true, true, t.seq + 1⟩ :: l' : List (Ref F)), p.seq = t.seq + 1 := by
      intro p hp
      rcases List.mem_cons.1 hp with rfl | hp
      · rfl
      · rw [a4 p hp, hq]
    refine ⟨?_, same_update env h f gg e ?_ ?_ ?_⟩
    · show (e.trav _).depth - 1 = 0
      rw [a1, hv]
    · intro g hg
      refine h.1 g ?_
      obtain ⟨p, hp, e1, e2⟩ := b5 g hg
      rw [hR, hrefs]
      exact read_counts _ _ _ (t.seq + 1) hsq g ⟨p, by simp [hp], e1, e2⟩
    · refine h.1 f ?_
      rw [hR, hrefs]
      exact read_counts _ _ _ (t.seq + 1) hsq f ⟨_, List.mem_cons_self, rfl, rfl⟩
    · rintro g (hg | ⟨q, hq, e1, e2⟩) hne
      · exact Or.inl hg
      · rw [hrefs] at hq
        rcases List.mem_append.1 hq with hq | hq
        · exact Or.inr ⟨q, hq, e1, e2⟩
        · rcases List.mem_cons.1 hq with rfl | hq
          · exact absurd e1.symm hne
          · rw [b4 q hq] at e2; exact absurd e2 (by simp)
  | setLoc k e =>
    have hv : t.visit.depth = 1 := by simp [Trav.visit, hd]
    obtain ⟨a1, a2, l, a3, a4⟩ := e.trav_straight t.visit hb hv.ge
    obtain ⟨l', b3, b4, b5⟩ := e.trav_refs t.visit
    have hll : l' = l := List.append_cancel_left (b3.symm.trans a3)
    subst hll
    have hrefs : ((Stmt.setLoc k e).trav t).refs = t.refs ++ l' := a3
    refine ⟨?_, same_setLoc env h k e ?_ ?_⟩
    · show (e.trav _).depth - 1 = 0
      rw [a1, hv]
    · intro g hg
      refine h.1 g ?_
      rw [hR, hrefs]
      exact read_counts _ _ _ t.visit.seq a4 g (b5 g hg)
    · rintro g (hg | ⟨q, hq, e1, e2⟩)
      · exact Or.inl hg
      · rw [hrefs] at hq
        rcases List.mem_append.1 hq with hq | hq
        · exact Or.inr ⟨q, hq, e1, e2⟩
        · rw [b4 q hq] at e2; exact absurd e2 (by simp)
  | binAdd i e =>
    simp only [Stmt.branches, Bool.or_eq_false_iff] at hb
    have hv : ((t.visit.visit.mark true) : Trav F).depth = 2 := by simp [Trav.visit, Trav.mark, hd]
    obtain ⟨a1, a2, l, a3, a4⟩ := i.trav_straight (t.visit.visit.mark true) hb.1
      (by rw [hv]; omega)
    obtain ⟨l', b3, b4, b5⟩ := i.trav_refs (t.visit.visit.mark true)
    have hll : l' = l := List.append_cancel_left (b3.symm.trans a3)
    subst hll
    have hv' : (i.trav (t.visit.visit.mark true)).leave.depth = 1 := by
      show (i.trav _).depth - 1 = 1
      rw [a1, hv]
    obtain ⟨c1, c2, m, c3, c4⟩ := e.trav_straight _ hb.2 hv'.ge
    obtain ⟨m', d3, d4, d5⟩ := e.trav_refs (i.trav (t.visit.visit.mark true)).leave
    have hmm : m' = m := List.append_cancel_left (d3.symm.trans c3)
    subst hmm
    have hrefs : ((Stmt.binAdd i e).trav t).refs = t.refs ++ (l' ++ m') := by
      simp only [Stmt.trav, Trav.leave] at c3 ⊢
      rw [c3, a3]; simp [Trav.visit, Trav.mark]
    have hsq : ∀ p ∈ l' ++ m', p.seq = t.visit.visit.seq := by
      intro p hp
      rcases List.mem_append.1 hp with hp | hp
      · exact a4 p hp
      · rw [c4 p hp]; exact a2
    refine ⟨?_, same_binAdd env h i e ?_ ?_ ?_⟩
    · show (e.trav _).depth - 1 = 0
      rw [c1, hv']
    · intro g hg
      refine h.1 g ?_
      rw [hR, hrefs]
      obtain ⟨p, hp, e'⟩ := b5 g hg
      exact read_counts _ _ _ t.visit.visit.seq hsq g ⟨p, by simp [hp], e'⟩
    · intro g hg
      refine h.1 g ?_
      rw [hR, hrefs]
      obtain ⟨p, hp, e'⟩ := d5 g hg
      exact read_counts _ _ _ t.visit.visit.seq hsq g ⟨p, by simp [hp], e'⟩
    · rintro g (hg | ⟨q, hq, e1, e2⟩)
      · exact Or.inl hg
      · rw [hrefs] at hq
        rcases List.mem_append.1 hq with hq | hq
        · exact Or.inr ⟨q, hq, e1, e2⟩
        · rcases List.mem_append.1 hq with hq | hq
          · rw [b4 q hq] at e2; exact absurd e2 (by simp)
          · rw [d4 q hq] at e2; exact absurd e2 (by simp)
  | andAssign test x f e => simp [Stmt.shortcuts] at hs
  | ite dep test x a b iha ihb => simp [Stmt.branches] at hb
  | loop n dep test x a ih => simp [Stmt.branches] at hb
  | cont => simp [Stmt.continues] at hc
  | skip => exact ⟨hd, rfl, h⟩
  | seq a b iha ihb =>
    simp only [Stmt.branches, Stmt.shortcuts, Stmt.continues, Bool.or_eq_false_iff] at hb hs hc
    obtain ⟨lb, hlb, -⟩ := b.trav_covers (a.trav t)
    obtain ⟨d1, h1⟩ := iha hb.1 hs.1 hc.1 t hd R (lb ++ rest)
      (by rw [hR]; simp only [Stmt.trav]; rw [hlb]; simp) s s' h
    refine ⟨(ihb hb.2 hs.2 hc.2 (a.trav t) d1 R rest hR s s
      ⟨fun _ _ => rfl, rfl, rfl⟩).1, ?_⟩
    simp only [Stmt.exec]
    match g1 : a.exec env s, g2 : a.exec env s', h1 with
    | none, none, _ => trivial
    | some r, some r', h1 =>
      have n1 : r.1 = false := by
        cases hr : r.1 with
        | false => rfl
        | true => exact absurd ((a.exec_fields env s r g1).2 hr) (by simp [hc.1])
      simp only [Option.bind_some, ← h1.1, n1, Bool.false_eq_true, if_false]
      exact (ihb hb.2 hs.2 hc.2 (a.trav t) d1 R rest hR _ _ h1.2).2
  | block a ih =>
    have h0 : (t.visit.top : Trav F).refs = t.refs := rfl
    exact ⟨rfl, (ih hb hs hc t.visit.top rfl R rest hR s s' h).2⟩

end Body
end Hila
