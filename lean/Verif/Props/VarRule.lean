import Verif.Model.VarRule
import Mathlib.Data.List.Induction
import Mathlib.Tactic.Common

/-!
# C117: variables which all sites share are changed in loops by reductions only
-/

namespace Hila

/-- The operators of the references to `x`, in order. -/
def vrOps (rs : List VrRef) (x : ℕ) : List (Option BrOp) := (rs.filter fun r => r.var = x).map (·.assign)

/-- The first reduction among the operators. -/
def vrFirst : List (Option BrOp) → BrRed
  | [] => .none
  | some .add :: _ => .sum
  | some .mul :: _ => .product
  | _ :: l => vrFirst l

/-- One more operator at the end. -/
theorem vrFirst_append (l : List (Option BrOp)) (a : Option BrOp) :
    vrFirst (l ++ [a]) = if vrFirst l = .none then vrKind false a else vrFirst l := by
  induction l with
  | nil => rcases a with _ | (_ | _ | _) <;> simp [vrFirst, vrKind]
  | cons b l ih =>
    rcases b with _ | (_ | _ | _)
    · exact ih
    · simp [vrFirst]
    · simp [vrFirst]
    · exact ih

/-- The entry of a shared variable at the end. -/
theorem vrState_spec {v : ℕ → VrVar} {x : ℕ} (hl : (v x).isLocal = false) (hr : (v x).raw = false) (rs : List VrRef) :
    rs.foldl (vrStep v) (fun _ => none) x =
      if vrOps rs x = [] then none else some ⟨(vrOps rs x).any Option.isSome, vrFirst (vrOps rs x)⟩ := by
  induction rs using List.reverseRecOn with
  | nil => simp [vrOps]
  | append_singleton rs r ih =>
    rw [List.foldl_append, List.foldl_cons, List.foldl_nil, vrStep]
    by_cases hx : r.var = x
    · subst hx
      have ho : vrOps (rs ++ [r]) r.var = vrOps rs r.var ++ [r.assign] := by simp [vrOps]
      rw [Function.update_self, ih, ho]
      by_cases he : vrOps rs r.var = []
      · simp [he, hr, hl]
        rcases r.assign with _ | (_ | _ | _) <;> simp [vrFirst, vrKind]
      · simp [he, hr, hl, vrFirst_append]
    · have ho : vrOps (rs ++ [r]) x = vrOps rs x := by simp [vrOps, hx]
      rw [Function.update_of_ne (Ne.symm hx), ih, ho]

/-- No reduction among the operators. -/
theorem vrFirst_none (l : List (Option BrOp)) : vrFirst l = .none ↔ some .add ∉ l ∧ some .mul ∉ l := by
  induction l with
  | nil => simp [vrFirst]
  | cons b l ih => rcases b with _ | (_ | _ | _) <;> simp [vrFirst, ih]

/-- The first reduction is a product. -/
theorem vrFirst_product (l : List (Option BrOp)) :
    vrFirst l = .product ↔ ∃ l₁ l₂, l = l₁ ++ some .mul :: l₂ ∧ some .add ∉ l₁ := by
  induction l with
  | nil => simp [vrFirst]
  | cons b l ih =>
    have key : ∀ c : Option BrOp, c ≠ some .add → c ≠ some .mul →
        ((∃ l₁ l₂, l = l₁ ++ some .mul :: l₂ ∧ some .add ∉ l₁) ↔ ∃ l₁ l₂, c :: l = l₁ ++ some .mul :: l₂ ∧ some .add ∉ l₁) := by
      intro c h1 h2
      constructor
      · rintro ⟨l₁, l₂, h, hn⟩
        exact ⟨c :: l₁, l₂, by rw [h]; rfl, by simp [hn, Ne.symm h1]⟩
      · rintro ⟨l₁, l₂, h, hn⟩
        cases l₁ with
        | nil => simp at h; exact absurd h.1 h2
        | cons d l₁ =>
          simp at h
          exact ⟨l₁, l₂, h.2, fun hm => hn (List.mem_cons_of_mem _ hm)⟩
    rcases b with _ | (_ | _ | _)
    · change vrFirst l = .product ↔ _
      rw [ih]; exact key _ (by simp) (by simp)
    · simp only [vrFirst]
      constructor
      · intro h; cases h
      · rintro ⟨l₁, l₂, h, hn⟩
        cases l₁ with
        | nil => simp at h
        | cons d l₁ => simp at h; simp [← h.1] at hn
    · simp only [vrFirst, true_iff]; exact ⟨[], l, rfl, by simp⟩
    · change vrFirst l = .product ↔ _
      rw [ih]; exact key _ (by simp) (by simp)

/-- **C117 (what is accepted).** A loop is accepted exactly when each shared variable in it is changed by `+=` or `*=` somewhere, or is only read and not of
type `Reduction<T>`; and its type is one of the list when the first of these operators is `*=`. Missing: the rule itself is weaker than
the property, see the theorems ending in `_wrong`. -/
theorem C117_accepted_partial (v : ℕ → VrVar) (rs : List VrRef) :
    (vrLoop v rs → ∀ x, (v x).isLocal = false → (v x).raw = false → (∃ r ∈ rs, r.var = x) →
      (some .add ∈ vrOps rs x ∨ some .mul ∈ vrOps rs x ∨ ((v x).special = false ∧ ∀ r ∈ rs, r.var = x → r.assign = none)) ∧
      ((∃ l₁ l₂, vrOps rs x = l₁ ++ some .mul :: l₂ ∧ some .add ∉ l₁) → (v x).type ∈ vrLegal)) ∧
    ((∀ x, (v x).isLocal = false → (v x).raw = false → (∃ r ∈ rs, r.var = x) →
      (some .add ∈ vrOps rs x ∨ some .mul ∈ vrOps rs x ∨ ((v x).special = false ∧ ∀ r ∈ rs, r.var = x → r.assign = none)) ∧
      ((∃ l₁ l₂, vrOps rs x = l₁ ++ some .mul :: l₂ ∧ some .add ∉ l₁) → (v x).type ∈ vrLegal)) → vrLoop v rs) := by
  have hany : ∀ x, (vrOps rs x).any Option.isSome = false ↔ ∀ r ∈ rs, r.var = x → r.assign = none := by
    intro x; simp [vrOps]
  have hne : ∀ x, vrOps rs x = [] ↔ ¬ ∃ r ∈ rs, r.var = x := by
    intro x; simp [vrOps]
  have hchk : ∀ x, (v x).isLocal = false → (v x).raw = false →
      (vrCheck (v x) ⟨(vrOps rs x).any Option.isSome, vrFirst (vrOps rs x)⟩ = true ↔
      (some .add ∈ vrOps rs x ∨ some .mul ∈ vrOps rs x ∨ ((v x).special = false ∧ ∀ r ∈ rs, r.var = x → r.assign = none)) ∧
      ((∃ l₁ l₂, vrOps rs x = l₁ ++ some .mul :: l₂ ∧ some .add ∉ l₁) → (v x).type ∈ vrLegal)) := by
    intro x hl hr
    rw [← vrFirst_product, ← hany x]
    have hn := vrFirst_none (vrOps rs x)
    simp only [vrCheck, hl, hr, Bool.or_self, Bool.false_eq_true, if_false, Bool.and_eq_true, Bool.or_eq_true, bne_iff_ne, List.contains_iff_mem]
    refine and_congr ?_ ?_
    · by_cases h0 : vrFirst (vrOps rs x) = .none
      · have := hn.1 h0
        simp only [h0, this.1, this.2, ne_eq, not_true_eq_false, if_false, false_or]
        cases (v x).special <;> simp
      · have : some .add ∈ vrOps rs x ∨ some .mul ∈ vrOps rs x := by
          by_contra hx; push Not at hx; exact h0 (hn.2 hx)
        simp only [h0, ne_eq, not_false_eq_true, if_true, true_iff]
        exact this.elim Or.inl (fun h => Or.inr (Or.inl h))
    · constructor
      · rintro (h | h) hp
        · exact absurd hp h
        · exact h
      · intro h
        by_cases hp : vrFirst (vrOps rs x) = .product
        · exact Or.inr (h hp)
        · exact Or.inl hp
  constructor
  · intro h x hl hr hx
    rw [← hchk x hl hr]
    apply h x
    rw [vrState_spec hl hr, if_neg]
    rw [hne]; exact fun hn => hn hx
  · intro h x i hi
    by_cases hl : (v x).isLocal = true
    · simp [vrCheck, hl]
    by_cases hr : (v x).raw = true
    · simp [vrCheck, hr]
    simp only [Bool.not_eq_true] at hl hr
    rw [vrState_spec hl hr] at hi
    by_cases he : vrOps rs x = []
    · simp [he] at hi
    · rw [if_neg he] at hi
      obtain rfl := Option.some.inj hi
      rw [hchk x hl hr]
      refine h x hl hr ?_
      by_contra hx; exact he ((hne x).2 hx)

/-- **C117 (reductions).** A shared variable which is changed by `+=` only is summed, one which is changed by `*=` only is multiplied, and one which is
only read is not reduced. -/
theorem C117_reduction {v : ℕ → VrVar} {rs : List VrRef} {x : ℕ} (hl : (v x).isLocal = false) (hr : (v x).raw = false) :
    (some .add ∈ vrOps rs x → some .mul ∉ vrOps rs x → vrReduction v rs x = .sum) ∧
    (some .mul ∈ vrOps rs x → some .add ∉ vrOps rs x → vrReduction v rs x = .product) ∧
    (some .add ∉ vrOps rs x → some .mul ∉ vrOps rs x → vrReduction v rs x = .none) := by
  have hred : vrReduction v rs x = vrFirst (vrOps rs x) := by
    rw [vrReduction, vrState_spec hl hr]
    by_cases he : vrOps rs x = []
    · simp [he, vrFirst]
    · simp [he]
  rw [hred]
  have hn := vrFirst_none (vrOps rs x)
  have hp := vrFirst_product (vrOps rs x)
  refine ⟨fun h1 h2 => ?_, fun h1 h2 => ?_, fun h1 h2 => hn.2 ⟨h1, h2⟩⟩
  · cases hv : vrFirst (vrOps rs x) with
    | none => exact absurd h1 (hn.1 hv).1
    | sum => rfl
    | product => obtain ⟨l₁, l₂, h, -⟩ := hp.1 hv; exact absurd (by rw [h]; simp) h2
  · rw [hp]
    obtain ⟨l₁, l₂, h⟩ := List.append_of_mem h1
    exact ⟨l₁, l₂, h, fun hm => h2 (by rw [h]; exact List.mem_append_left _ hm)⟩

/-- **C117 fails for other changes.** After (or before) one `+=` every other use of the variable is accepted: any list of assignments and reads. -/
theorem C117_other_wrong {v : ℕ → VrVar} {x : ℕ} (hl : (v x).isLocal = false) (hr : (v x).raw = false) (l : List (Option BrOp)) :
    vrLoop v (({ var := x, assign := some .add } : VrRef) :: l.map fun a => { var := x, assign := a }) ∧
    vrReduction v (({ var := x, assign := some .add } : VrRef) :: l.map fun a => { var := x, assign := a }) x = .sum := by
  have ho : vrOps (({ var := x, assign := some .add } : VrRef) :: l.map fun a => { var := x, assign := a }) x = some .add :: l := by
    simp [vrOps, List.filter_map, Function.comp_def]
  constructor
  · apply (C117_accepted_partial v _).2
    intro y hly hry hy
    obtain ⟨r, hm, rfl⟩ := hy
    have hrx : r.var = x := by
      simp only [List.mem_cons, List.mem_map] at hm
      rcases hm with h | ⟨a, -, h⟩
      · rw [h]
      · rw [← h]
    rw [hrx, ho]
    refine ⟨Or.inl (by simp), ?_⟩
    rintro ⟨l₁, l₂, h, hn⟩
    cases l₁ with
    | nil => simp at h
    | cons d l₁ => simp at h; simp [← h.1] at hn
  · rw [vrReduction, vrState_spec hl hr, ho]; simp [vrFirst]

/-- **C117 fails for some types.** The names in the list are compared with canonical types, and clang writes `unsigned` as `unsigned int`: `*=` to a
variable of type `unsigned` is refused although the message names `unsigned` as allowed. The same holds of `Reduction<unsigned>`. -/
theorem C117_unsigned_wrong {v : ℕ → VrVar} {x : ℕ} (hl : (v x).isLocal = false) (hr : (v x).raw = false)
    (ht : (v x).type = "unsigned int" ∨ (v x).type = "class Reduction<unsigned int>") : ¬ vrLoop v [{ var := x, assign := some .mul }] := by
  intro h
  have := ((C117_accepted_partial v _).1 h x hl hr ⟨_, List.mem_singleton.2 rfl, rfl⟩).2 ⟨[], [], by simp [vrOps], by simp⟩
  rcases ht with ht | ht <;> rw [ht] at this <;> revert this <;> decide +kernel

/-- **C117 (types).** `*=` to a shared variable is accepted for the canonical types `int`, `long`, `unsigned long`, `float`, `double`, `long double` and for
`Reduction` of these, and for no type such as `bool` or a class whose name is not a text of the list. -/
theorem C117_types {v : ℕ → VrVar} {x : ℕ} (hl : (v x).isLocal = false) (hr : (v x).raw = false) :
    ((v x).type ∈ ["int", "long", "unsigned long", "float", "double", "long double", "class Reduction<int>", "class Reduction<long>",
      "class Reduction<unsigned long>", "class Reduction<float>", "class Reduction<double>", "class Reduction<long double>"] →
      vrLoop v [{ var := x, assign := some .mul }]) ∧
    (vrLoop v [{ var := x, assign := some .mul }] → (v x).type ∈ ["int", "unsigned", "long", "int64_t", "uint64_t", "unsigned long", "float", "double",
      "long double", "class Reduction<int>", "class Reduction<unsigned>", "class Reduction<long>", "class Reduction<int64_t>",
      "class Reduction<uint64_t>", "class Reduction<unsigned long>", "class Reduction<float>", "class Reduction<double>", "class Reduction<long double>"]) := by
  have hleg : vrLegal = ["int", "unsigned", "long", "int64_t", "uint64_t", "unsigned long", "float", "double",
      "long double", "class Reduction<int>", "class Reduction<unsigned>", "class Reduction<long>", "class Reduction<int64_t>",
      "class Reduction<uint64_t>", "class Reduction<unsigned long>", "class Reduction<float>", "class Reduction<double>", "class Reduction<long double>"] := by
    decide +kernel
  constructor
  · intro ht
    apply (C117_accepted_partial v _).2
    intro y _ _ hy
    obtain ⟨r, hm, rfl⟩ := hy
    rw [List.mem_singleton.1 hm]
    refine ⟨Or.inr (Or.inl (by simp [vrOps])), fun _ => ?_⟩
    rw [hleg]
    simp only [List.mem_cons, List.not_mem_nil, or_false] at ht ⊢
    rcases ht with h | h | h | h | h | h | h | h | h | h | h | h <;> simp [h]
  · intro h
    rw [← hleg]
    exact ((C117_accepted_partial v _).1 h x hl hr ⟨_, List.mem_singleton.2 rfl, rfl⟩).2 ⟨[], [], by simp [vrOps], by simp⟩

/-- Variables for the examples: 0 is a `double`, 1 a `Reduction<double>`, 2 an `int` of the loop. -/
def vrDemo (x : ℕ) : VrVar :=
  if x = 0 then { type := "double" } else if x = 1 then { special := true, type := "class Reduction<double>" } else { isLocal := true, type := "int" }

/-- `s += f[X]; t = 1; r *= s2` is accepted: the hypotheses of `C117_accepted_partial` are met. -/
example : vrLoop vrDemo [{ var := 0, assign := some .add }, { var := 2, assign := some .other }, { var := 1, assign := some .mul }] := by
  apply (C117_accepted_partial _ _).2
  intro x hl hr hx
  simp at hx
  rcases hx with rfl | rfl | rfl
  · simp [vrOps, List.cons_eq_append_iff]
  · refine absurd hl (by simp [vrDemo])
  · refine ⟨by simp [vrOps], fun _ => by decide +kernel⟩

/-- `C117_types`: the product of a `double` is accepted, that of a `bool` is not. -/
example : vrLoop vrDemo [{ var := 0, assign := some .mul }] ∧ ¬ vrLoop (fun _ => { type := "bool" }) [{ var := 0, assign := some .mul }] :=
  ⟨(C117_types rfl rfl).1 (by decide +kernel), fun h => absurd ((C117_types rfl rfl).2 h) (by decide +kernel)⟩

/-- `s = f[X]` and the reading of a `Reduction<double>` are refused. -/
example : ¬ vrLoop vrDemo [{ var := 0, assign := some .other }] ∧ ¬ vrLoop vrDemo [{ var := 1 }] := by
  refine ⟨fun h => ?_, fun h => ?_⟩
  · have := ((C117_accepted_partial _ _).1 h 0 rfl rfl ⟨_, List.mem_singleton.2 rfl, rfl⟩).1
    simp [vrOps] at this
  · have := ((C117_accepted_partial _ _).1 h 1 rfl rfl ⟨_, List.mem_singleton.2 rfl, rfl⟩).1
    simp [vrOps, vrDemo] at this

/-- `C117_reduction`: the sum and the product of the first example. -/
example : vrReduction vrDemo [{ var := 0, assign := some .add }, { var := 1, assign := some .mul }, { var := 0 }] 0 = .sum ∧
    vrReduction vrDemo [{ var := 0, assign := some .add }, { var := 1, assign := some .mul }, { var := 0 }] 1 = .product := by decide +kernel

end Hila
