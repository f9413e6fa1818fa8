import Verif.Model.AddrRef

/-!
# C115: addresses and references in site loops

Property theorems about `Model/AddrRef`.
-/

namespace Hila

/-- Specification: the variable of which the expression refers to a part, if any. -/
def LExpr.root : LExpr → Option ℕ
  | .var v => some v
  | .member e _ => e.root
  | .elem e _ => e.root
  | .paren e => e.root
  | .implicit e => e.root
  | .cast e => e.root
  | .fieldX _ _ => none
  | .fieldParity _ => none
  | .indexX => none

/-- `e` in `n` pairs of parentheses. -/
def parens : ℕ → LExpr → LExpr
  | 0, e => e
  | n + 1, e => .paren (parens n e)

/-- `e` with a list of casts, explicit (`true`) and implicit ones. -/
def casts : List Bool → LExpr → LExpr
  | [], e => e
  | b :: l, e => if b then .cast (casts l e) else .implicit (casts l e)

theorem parens_root (n : ℕ) (e : LExpr) : (parens n e).root = e.root := by
  induction n with
  | zero => rfl
  | succ n ih => exact ih

theorem casts_root (l : List Bool) (e : LExpr) : (casts l e).root = e.root := by
  induction l with
  | nil => rfl
  | cons b l ih => cases b <;> exact ih

/-- An expression which is no cast and not in parentheses. -/
def LExpr.bare : LExpr → Bool
  | .paren _ => false
  | .implicit _ => false
  | .cast _ => false
  | _ => true

theorem bare_ignore (e : LExpr) (h : e.bare = true) : e.ignoreParens = e ∧ e.ignoreImplicit = e ∧ e.ignoreCasts = e := by
  cases e <;> first | exact ⟨rfl, rfl, rfl⟩ | cases h

theorem casts_ignoreParens (l : List Bool) (e : LExpr) (h : e.bare = true) : (casts l e).ignoreParens = casts l e := by
  cases l with
  | nil => exact (bare_ignore e h).1
  | cons b l => cases b <;> rfl

theorem parens_ignoreParens (n : ℕ) (e : LExpr) : (parens n e).ignoreParens = e.ignoreParens := by
  induction n with
  | zero => rfl
  | succ n ih => exact ih

theorem casts_ignoreCasts (l : List Bool) (e : LExpr) : (casts l e).ignoreCasts = e.ignoreCasts := by
  induction l with
  | nil => rfl
  | cons b l ih => cases b <;> exact ih

theorem casts_implicit_casts (l : List Bool) (e : LExpr) (h : e.bare = true) : (casts l e).ignoreImplicit.ignoreCasts = e := by
  induction l with
  | nil => rw [casts, (bare_ignore e h).2.1, (bare_ignore e h).2.2]
  | cons b l ih =>
    cases b with
    | false => exact ih
    | true =>
      show (casts l e).ignoreCasts = e
      rw [casts_ignoreCasts, (bare_ignore e h).2.2]

theorem addr_strip (n : ℕ) (l : List Bool) (e : LExpr) (h : e.bare = true) :
    (parens n (casts l e)).ignoreParens.ignoreImplicit.ignoreCasts = e := by
  rw [parens_ignoreParens, casts_ignoreParens l e h, casts_implicit_casts l e h]

theorem implicit_strip (k : ℕ) (e : LExpr) (h : e.bare = true) : (casts (List.replicate k false) e).ignoreImplicit = e := by
  induction k with
  | zero => exact (bare_ignore e h).2.1
  | succ k ih => exact ih

theorem ref_strip (n k : ℕ) (l : List Bool) (e : LExpr) (h : e.bare = true) :
    (casts l (parens n (casts (List.replicate k false) e))).ignoreCasts.ignoreParens.ignoreImplicit = e := by
  rw [casts_ignoreCasts]
  cases n with
  | zero =>
    rw [parens, casts_ignoreCasts, (bare_ignore e h).2.2, (bare_ignore e h).1, (bare_ignore e h).2.1]
  | succ n =>
    have e1 : (parens (n + 1) (casts (List.replicate k false) e)).ignoreCasts = parens (n + 1) (casts (List.replicate k false) e) := rfl
    rw [e1, parens_ignoreParens, casts_ignoreParens _ e h, implicit_strip k e h]

/-- **C115, addresses** (partial: casts in parentheses, see the negations).  The address of a whole variable, in any number of parentheses and casts,
is accepted for variables of the loop and
refused for others; the address of a field element `f[X]`, `f[X + dir]`, `f[parity]` and of `X` is always refused. -/
theorem C115_address_partial (vars : ℕ → LVar) (n : ℕ) (l : List Bool) (v f : ℕ) (dir : Bool) (hv : vars v ≠ .unknown) :
    (checkAddr vars (parens n (casts l (.var v))) = .accepted ↔ vars v = .local) ∧
    (checkAddr vars (parens n (casts l (.var v))) = .refused ↔ vars v = .outside) ∧
    checkAddr vars (parens n (casts l (.fieldX f dir))) = .refused ∧ checkAddr vars (parens n (casts l (.fieldParity f))) = .refused ∧
    checkAddr vars (parens n (casts l .indexX)) = .refused := by
  unfold checkAddr
  rw [addr_strip n l (.var v) rfl, addr_strip n l (.fieldX f dir) rfl, addr_strip n l (.fieldParity f) rfl, addr_strip n l .indexX rfl]
  cases h : vars v with
  | «local» => simp [h]
  | outside => simp [h]
  | unknown => exact absurd h hv

example : checkAddr (fun v => if v = 0 then .local else .outside) (.paren (.cast (.var 1))) = .refused ∧
    checkAddr (fun v => if v = 0 then .local else .outside) (.paren (.var 0)) = .accepted := by decide

/-- **C115, references** (partial: whole variables).  A reference to a whole variable is accepted if it is const or the variable is one of the loop,
and refused for other variables; a non-const
reference to `f[X]` is accepted and the field marked as written, one to `f[X + dir]` is refused; the field is marked as read unless the declaration is `out_only`. -/
theorem C115_reference_partial (vars : ℕ → LVar) (m : LMark) (n k : ℕ) (l : List Bool) (v f : ℕ) (c o dir : Bool) (hv : vars v ≠ .unknown) :
    ((checkDecl vars m ⟨.auto, true, some (casts l (parens n (casts (List.replicate k false) (.var v)))), c, o⟩).1 = .accepted ↔ c = true ∨ vars v = .local) ∧
    ((checkDecl vars m ⟨.auto, true, some (casts l (parens n (casts (List.replicate k false) (.var v)))), c, o⟩).1 = .refused ↔ c = false ∧ vars v = .outside) ∧
    ((checkDecl vars m ⟨.auto, true, some (casts l (parens n (casts (List.replicate k false) (.fieldX f dir)))), c, o⟩).1 = .accepted ↔ c = true ∨ dir = false) ∧
    (checkDecl vars m ⟨.auto, true, some (casts l (parens n (casts (List.replicate k false) (.fieldX f dir)))), c, o⟩).2 = ⟨!o, !c || m.written⟩ := by
  unfold checkDecl
  simp only [ref_strip n k l (.var v) rfl, ref_strip n k l (.fieldX f dir) rfl]
  cases c <;> cases dir <;> cases h : vars v <;> first | exact absurd h hv | simp

example : checkDecl (fun _ => .outside) ⟨true, false⟩ ⟨.auto, true, some (.fieldX 0 false), false, true⟩ = (.accepted, ⟨false, true⟩) ∧
    (checkDecl (fun _ => .outside) ⟨true, false⟩ ⟨.auto, true, some (.var 3), false, false⟩).1 = .refused := by decide

/-- **C115, static variables.** Declarations of static and extern variables in a loop are always refused; variables which are no references are accepted. -/
theorem C115_static (vars : ℕ → LVar) (m : LMark) (d : LDecl) :
    (d.storage ≠ .auto → (checkDecl vars m d).1 = .refused) ∧ (d.storage = .auto → d.isRef = false → checkDecl vars m d = (.accepted, m)) := by
  unfold checkDecl
  constructor
  · intro h
    rw [if_pos h]
  · intro h1 h2
    rw [if_neg (by simp [h1]), if_pos h2]

example : (checkDecl (fun _ => .local) ⟨true, false⟩ ⟨.static, false, some (.var 0), true, false⟩).1 = .refused := by decide

/-- **C115 fails for parts of variables.** The address of, and a non-const reference to, a member or an element of a variable is accepted, also if the
variable is one from outside the loop:
all sites can write to it at the same time. -/
theorem C115_part_wrong (vars : ℕ → LVar) (m : LMark) (e : LExpr) (k v : ℕ) (he : e.root = some v) (_hv : vars v = .outside) (o : Bool) :
    (LExpr.member e k).root = some v ∧ (LExpr.elem e k).root = some v ∧
    checkAddr vars (.member e k) = .accepted ∧ checkAddr vars (.elem e k) = .accepted ∧
    checkDecl vars m ⟨.auto, true, some (.member e k), false, o⟩ = (.accepted, m) ∧
    checkDecl vars m ⟨.auto, true, some (.elem e k), false, o⟩ = (.accepted, m) := ⟨he, he, rfl, rfl, rfl, rfl⟩

example : checkAddr (fun _ => .outside) (.member (.var 0) 1) = .accepted := (C115_part_wrong (fun _ => .outside) ⟨true, true⟩ (.var 0) 1 0 rfl rfl false).2.2.1

/-- **C115 fails for parts of field elements.** The address of a member of `f[X]` is accepted, and so is a non-const reference to it, but the field is
not marked as written: a field which was only
read before counts as unchanged after `auto &r = f[X].re; r = 1;`. -/
theorem C115_field_part_wrong (vars : ℕ → LVar) (m : LMark) (f k : ℕ) (o : Bool) :
    checkAddr vars (.member (.fieldX f false) k) = .accepted ∧
    checkDecl vars m ⟨.auto, true, some (.member (.fieldX f false) k), false, o⟩ = (.accepted, m) ∧
    checkDecl vars m ⟨.auto, true, some (.fieldX f false), false, false⟩ = (.accepted, ⟨true, true⟩) := ⟨rfl, rfl, rfl⟩

example : (checkDecl (fun _ => .outside) ⟨true, false⟩ ⟨.auto, true, some (.member (.fieldX 0 false) 0), false, false⟩).2.written = false := by decide

/-- **C115 fails for casts of parentheses.** `&(T &)(v)` is accepted for a variable from outside, because only casts are removed after the parentheses outside. -/
theorem C115_cast_wrong (vars : ℕ → LVar) (n v : ℕ) (_hv : vars v = .outside) :
    (parens n (.cast (.paren (.var v)))).root = some v ∧ checkAddr vars (parens n (.cast (.paren (.var v)))) = .accepted := by
  refine ⟨by rw [parens_root]; rfl, ?_⟩
  unfold checkAddr
  rw [parens_ignoreParens]
  rfl

end Hila
