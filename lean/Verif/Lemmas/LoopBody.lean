import Verif.Model.LoopBodySpec
import Mathlib.Data.List.Induction

/-!
# Lemmas about the analysis of loop bodies
-/

namespace Hila
namespace Body

/-! ### References found by the traversal -/

/-- References of an expression: reads only, and every field read is among them. -/
theorem Expr.trav_refs {F V : Type} (e : Expr F V) (t : Trav F) :
    ∃ l : List (Ref F), (e.trav t).refs = t.refs ++ l ∧ (∀ p ∈ l, p.written = false) ∧
      ∀ f ∈ e.reads, ∃ p ∈ l, p.fld = f ∧ p.read = true := by
  induction e generalizing t with
  | lit v => exact ⟨[], by simp [Expr.trav, Trav.visit, Trav.leave], by simp, by simp [Expr.reads]⟩
  | env v => exact ⟨[], by simp [Expr.trav, Trav.visit, Trav.leave], by simp, by simp [Expr.reads]⟩
  | loc v => exact ⟨[], by simp [Expr.trav, Trav.visit, Trav.leave], by simp, by simp [Expr.reads]⟩
  | fld f =>
    exact ⟨[⟨f, false, true, t.visit.seq⟩], by simp [Expr.trav, Trav.visit, Trav.leave, Trav.addRef],
      by simp, by simp [Expr.reads]⟩
  | op g a b iha ihb =>
    obtain ⟨la, ha, wa, ra⟩ := iha t.visit
    obtain ⟨lb, hb, wb, rb⟩ := ihb (a.trav t.visit)
    refine ⟨la ++ lb, ?_, ?_, ?_⟩
    · simp only [Expr.trav, Trav.leave]; rw [hb, ha]; simp [Trav.visit]
    · intro p hp; rcases List.mem_append.1 hp with h | h
      · exact wa p h
      · exact wb p h
    · intro f hf
      rcases List.mem_append.1 hf with h | h
      · obtain ⟨p, hp, h'⟩ := ra f h; exact ⟨p, List.mem_append_left _ hp, h'⟩
      · obtain ⟨p, hp, h'⟩ := rb f h; exact ⟨p, List.mem_append_right _ hp, h'⟩
  | table g dep i ih =>
    obtain ⟨l, h, w, r⟩ := ih (t.visit.mark dep)
    exact ⟨l, by simp only [Expr.trav, Trav.leave]; rw [h]; simp [Trav.visit, Trav.mark, Trav.top], w, r⟩
  | cond dep test x a b ihx iha ihb =>
    obtain ⟨lx, hx, wx, rx⟩ := ihx t.visit.visit
    obtain ⟨la, ha, wa, ra⟩ := iha (x.trav t.visit.visit)
    obtain ⟨lb, hb, wb, rb⟩ := ihb (a.trav (x.trav t.visit.visit))
    refine ⟨lx ++ (la ++ lb), ?_, ?_, ?_⟩
    · simp only [Expr.trav, Trav.leave, Trav.endCond]; rw [hb, ha, hx]; simp [Trav.visit]
    · intro p hp
      rcases List.mem_append.1 hp with h | h
      · exact wx p h
      rcases List.mem_append.1 h with h | h
      · exact wa p h
      · exact wb p h
    · intro f hf
      rcases List.mem_append.1 hf with h | h
      · obtain ⟨p, hp, h'⟩ := rx f h; exact ⟨p, List.mem_append_left _ hp, h'⟩
      rcases List.mem_append.1 h with h | h
      · obtain ⟨p, hp, h'⟩ := ra f h
        exact ⟨p, List.mem_append_right _ (List.mem_append_left _ hp), h'⟩
      · obtain ⟨p, hp, h'⟩ := rb f h
        exact ⟨p, List.mem_append_right _ (List.mem_append_right _ hp), h'⟩

/-- What a list of references says about the fields read and written. -/
def Covers {F : Type} (l : List (Ref F)) (rd wr : List F) : Prop :=
  (∀ p ∈ l, p.written = true → p.fld ∈ wr) ∧
  (∀ f ∈ wr, ∃ p ∈ l, p.fld = f ∧ p.written = true) ∧
  (∀ f ∈ rd, ∃ p ∈ l, p.fld = f ∧ p.read = true)

theorem Covers.append {F : Type} {l l' : List (Ref F)} {rd rd' wr wr' : List F}
    (h : Covers l rd wr) (h' : Covers l' rd' wr') : Covers (l ++ l') (rd ++ rd') (wr ++ wr') := by
  obtain ⟨a, b, c⟩ := h
  obtain ⟨a', b', c'⟩ := h'
  refine ⟨?_, ?_, ?_⟩
  · intro p hp hw
    rcases List.mem_append.1 hp with h | h
    · exact List.mem_append_left _ (a p h hw)
    · exact List.mem_append_right _ (a' p h hw)
  · intro f hf
    rcases List.mem_append.1 hf with h | h
    · obtain ⟨p, hp, h'⟩ := b f h; exact ⟨p, List.mem_append_left _ hp, h'⟩
    · obtain ⟨p, hp, h'⟩ := b' f h; exact ⟨p, List.mem_append_right _ hp, h'⟩
  · intro f hf
    rcases List.mem_append.1 hf with h | h
    · obtain ⟨p, hp, h'⟩ := c f h; exact ⟨p, List.mem_append_left _ hp, h'⟩
    · obtain ⟨p, hp, h'⟩ := c' f h; exact ⟨p, List.mem_append_right _ hp, h'⟩

theorem Expr.trav_covers {F V : Type} (e : Expr F V) (t : Trav F) :
    ∃ l : List (Ref F), (e.trav t).refs = t.refs ++ l ∧ Covers l e.reads [] := by
  obtain ⟨l, h, w, r⟩ := e.trav_refs t
  exact ⟨l, h, ⟨fun p hp hw => by simp [w p hp] at hw, by simp, r⟩⟩

theorem covers_nil {F : Type} : Covers ([] : List (Ref F)) [] [] := by
  simp [Covers]

theorem travAssign_covers {F V : Type} (f : F) (c : Bool) (e : Expr F V) (t : Trav F) :
    ∃ l : List (Ref F), (travAssign f c e t).refs = t.refs ++ l ∧
      Covers l ((if c then [f] else []) ++ e.reads) [f] := by
  obtain ⟨l, h, hc⟩ := e.trav_covers ((t.visit.visit.addRef f true c).leave)
  refine ⟨⟨f, true, c, t.visit.visit.seq⟩ :: l, ?_, ?_⟩
  · simp only [travAssign, Trav.leave] at h ⊢; rw [h]; simp [Trav.visit, Trav.addRef]
  · have h1 : Covers [(⟨f, true, c, t.visit.visit.seq⟩ : Ref F)] (if c then [f] else []) [f] := by
      cases c <;> simp [Covers]
    simpa using h1.append hc

/-- References of a statement. -/
theorem Stmt.trav_covers {F V : Type} (s : Stmt F V) (t : Trav F) :
    ∃ l : List (Ref F), (s.trav t).refs = t.refs ++ l ∧ Covers l s.reads s.writes := by
  induction s generalizing t with
  | assign f e =>
    obtain ⟨l, h, hc⟩ := travAssign_covers f false e t
    exact ⟨l, h, by simpa [Stmt.reads, Stmt.writes] using hc⟩
  | update f g e =>
    obtain ⟨l, h, hc⟩ := travAssign_covers f true e t
    exact ⟨l, h, by simpa [Stmt.reads, Stmt.writes] using hc⟩
  | setLoc k e =>
    obtain ⟨l, h, hc⟩ := e.trav_covers t.visit
    exact ⟨l, by simp only [Stmt.trav, Trav.leave]; rw [h]; simp [Trav.visit, Trav.mark, Trav.top], hc⟩
  | binAdd i e =>
    obtain ⟨l, h, hc⟩ := i.trav_covers (t.visit.visit.mark true)
    obtain ⟨l', h', hc'⟩ := e.trav_covers
      (i.trav (t.visit.visit.mark true)).leave
    refine ⟨l ++ l', ?_, by simpa [Stmt.reads, Stmt.writes] using hc.append hc'⟩
    simp only [Stmt.trav, Trav.leave] at h' ⊢; rw [h', h]; simp [Trav.visit, Trav.mark]
  | andAssign test x f e =>
    obtain ⟨l, h, hc⟩ := x.trav_covers t.visit
    obtain ⟨l', h', hc'⟩ := travAssign_covers f false e (x.trav t.visit)
    refine ⟨l ++ l', ?_, by simpa [Stmt.reads, Stmt.writes] using hc.append hc'⟩
    simp only [Stmt.trav, Trav.leave]; rw [h', h]; simp [Trav.visit, Trav.mark]
  | ite dep test x a b iha ihb =>
    obtain ⟨l, h, hc⟩ := x.trav_covers t.visit.visit
    obtain ⟨la, ha, hca⟩ := iha (x.trav t.visit.visit)
    obtain ⟨lb, hb, hcb⟩ := ihb (a.trav (x.trav t.visit.visit))
    refine ⟨l ++ (la ++ lb), ?_, by simpa [Stmt.reads, Stmt.writes] using hc.append (hca.append hcb)⟩
    simp only [Stmt.trav, Trav.leave, Trav.endCond]; rw [hb, ha, h]; simp [Trav.visit]
  | loop n dep test x a iha =>
    obtain ⟨l, h, hc⟩ := x.trav_covers t.visit.visit
    obtain ⟨la, ha, hca⟩ := iha (x.trav t.visit.visit)
    refine ⟨l ++ la, ?_, by simpa [Stmt.reads, Stmt.writes] using hc.append hca⟩
    simp only [Stmt.trav, Trav.leave, Trav.endCond]; rw [ha, h]; simp [Trav.visit]
  | cont => exact ⟨[], by simp [Stmt.trav, Trav.visit, Trav.leave], covers_nil⟩
  | skip => exact ⟨[], by simp [Stmt.trav], covers_nil⟩
  | seq a b iha ihb =>
    obtain ⟨la, ha, hca⟩ := iha t
    obtain ⟨lb, hb, hcb⟩ := ihb (a.trav t)
    exact ⟨la ++ lb, by simp only [Stmt.trav]; rw [hb, ha]; simp, hca.append hcb⟩
  | block a ih =>
    obtain ⟨l, h, hc⟩ := ih t.visit.top
    exact ⟨l, h, hc⟩

/-! ### The list of fields -/

theorem fieldInfo_concat {F : Type} [DecidableEq F] (l : List (Ref F)) (p : Ref F) (f : F) :
    fieldInfo (l ++ [p]) f = (fieldInfo l f).add f p := by
  simp [fieldInfo, List.foldl_append]

theorem Info.add_written {F : Type} [DecidableEq F] (f : F) (i : Info) (p : Ref F) :
    (i.add f p).written = (i.written || (decide (p.fld = f) && p.written)) := by
  unfold Info.add
  by_cases h : p.fld = f <;> cases hw : p.written <;> cases hi : i.written <;> simp [h, hi] <;>
    split <;> simp [hi]

theorem Info.add_first {F : Type} [DecidableEq F] (f : F) (i : Info) (p : Ref F) :
    (i.add f p).first =
      if p.fld = f ∧ p.written = true ∧ i.written = false then p.seq else i.first := by
  unfold Info.add
  by_cases h : p.fld = f <;> cases hw : p.written <;> cases hi : i.written <;> simp [h] <;>
    split <;> simp

theorem Info.add_readX_mono {F : Type} [DecidableEq F] (f : F) (i : Info) (p : Ref F)
    (h : i.readX = true) : (i.add f p).readX = true := by
  unfold Info.add
  dsimp only
  split
  · split <;> split <;> simp [h]
  · exact h

/-- A field counts as written iff a reference writes it. -/
theorem fieldInfo_written {F : Type} [DecidableEq F] (l : List (Ref F)) (f : F) :
    (fieldInfo l f).written = true ↔ ∃ p ∈ l, p.fld = f ∧ p.written = true := by
  induction l using List.reverseRecOn with
  | nil => simp [fieldInfo]
  | append_singleton l p ih =>
    rw [fieldInfo_concat, Info.add_written, Bool.or_eq_true, ih]
    simp only [Bool.and_eq_true, decide_eq_true_eq, List.mem_append, List.mem_singleton]
    constructor
    · rintro (⟨q, hq, h⟩ | h)
      · exact ⟨q, Or.inl hq, h⟩
      · exact ⟨p, Or.inr rfl, h⟩
    · rintro ⟨q, hq | rfl, h⟩
      · exact Or.inl ⟨q, hq, h⟩
      · exact Or.inr h

/-- The first assignment is one of the references. -/
theorem fieldInfo_first {F : Type} [DecidableEq F] (l : List (Ref F)) (f : F)
    (h : (fieldInfo l f).written = true) :
    ∃ p ∈ l, p.fld = f ∧ p.written = true ∧ (fieldInfo l f).first = p.seq := by
  induction l using List.reverseRecOn with
  | nil => simp [fieldInfo] at h
  | append_singleton l p ih =>
    rw [fieldInfo_concat] at h ⊢
    rw [Info.add_first]
    split
    · rename_i hc
      exact ⟨p, by simp, hc.1, hc.2.1, rfl⟩
    · rename_i hc
      rw [Info.add_written] at h
      have hw : (fieldInfo l f).written = true := by
        by_contra hw
        simp only [Bool.not_eq_true] at hw
        rw [hw] at h
        simp only [Bool.false_or, Bool.and_eq_true, decide_eq_true_eq] at h
        exact hc ⟨h.1, h.2, hw⟩
      obtain ⟨q, hq, h1, h2, h3⟩ := ih hw
      exact ⟨q, List.mem_append_left _ hq, h1, h2, h3⟩

theorem fieldInfo_readX_append {F : Type} [DecidableEq F] (l l' : List (Ref F)) (f : F)
    (h : (fieldInfo l f).readX = true) : (fieldInfo (l ++ l') f).readX = true := by
  induction l' using List.reverseRecOn with
  | nil => simpa using h
  | append_singleton l' p ih =>
    rw [← List.append_assoc, fieldInfo_concat]
    exact Info.add_readX_mono f _ p ih

/-- A read counts unless an earlier statement assigned to the field. -/
theorem fieldInfo_readX {F : Type} [DecidableEq F] (l l' : List (Ref F)) (p : Ref F)
    (hr : p.read = true)
    (hq : ∀ q ∈ l ++ [p], q.fld = p.fld → q.written = true → p.seq ≤ q.seq) :
    (fieldInfo (l ++ p :: l') p.fld).readX = true := by
  have h1 : (fieldInfo (l ++ [p]) p.fld).readX = true := by
    have hw := fieldInfo_first (l ++ [p]) p.fld
    rw [fieldInfo_concat] at hw ⊢
    rw [Info.add_first, Info.add_written] at hw
    unfold Info.add
    by_cases hpw : p.written = true
    · cases hi : (fieldInfo l p.fld).written with
      | false => simp [hpw, hi, hr]
      | true =>
        simp only [hi, hpw, Bool.true_or, Bool.true_eq_false, and_false, if_false] at hw
        obtain ⟨q, hqm, e1, e2, e3⟩ := hw trivial
        have := hq q hqm e1 e2
        simp [hi, hr, e3, this]
    · cases hi : (fieldInfo l p.fld).written with
      | false => simp [hpw, hi, hr]
      | true =>
        simp only [hi, Bool.true_or, Bool.true_eq_false, and_false, if_false] at hw
        obtain ⟨q, hqm, e1, e2, e3⟩ := hw trivial
        have := hq q hqm e1 e2
        simp [hi, hr, e3, this, hpw]
  have := fieldInfo_readX_append (l ++ [p]) l' p.fld h1
  simpa using this

end Body
end Hila
