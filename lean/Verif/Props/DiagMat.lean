import Verif.Lemmas.DiagMat
import Verif.Props.MatClass
import Mathlib.LinearAlgebra.Matrix.NonsingularInverse
import Mathlib.Analysis.Normed.Algebra.MatrixExponential
import Mathlib.Analysis.SpecialFunctions.Exponential

/-!
# C84: diagonal matrices stand for square matrices
-/

namespace Hila
open DiagT Matrix
variable {K : Type} {n m : ℕ}

theorem DiagT.make_yields [Zero K] {f : ℕ → Option K} (G : Fin n → K) {M : Matrix (Fin n) (Fin n) K} (h : ∀ i : Fin n, f i = some (G i))
    (hM : M = diagonal G) : YieldsD (make n f) M := by
  obtain ⟨r, hr, h1⟩ := make_some f G h
  exact ⟨r, G, hr, h1, hM⟩

theorem DiagT.update_yields [Zero K] {d : DiagT K n} {D : Fin n → K} (hd : Is1 d D) {f : DiagT K n → ℕ → K → Option K} (G : Fin n → K)
    {M : Matrix (Fin n) (Fin n) K} (h : ∀ (i : Fin n) (r : DiagT K n), MatT.at' r i = some (D i) → f r i (D i) = some (G i))
    (hM : M = diagonal G) : YieldsD (d.update f) M := by
  obtain ⟨r, hr, h1⟩ := update_some hd f G (fun i r _ h2 => h i r (h2 i (le_refl i)))
  exact ⟨r, G, hr, h1, hM⟩

section
variable [Field K]

theorem DiagT.diag_add_one (D : Fin n → K) (s : K) : diagonal D + s • (1 : Matrix (Fin n) (Fin n) K) = diagonal fun i => D i + s := by
  ext i j; by_cases h : i = j <;> simp [h]

theorem DiagT.diag_inv (D : Fin n → K) (h : ∀ i, D i ≠ 0) : (diagonal D)⁻¹ = diagonal fun i => (D i)⁻¹ := by
  apply Matrix.inv_eq_right_inv
  rw [diagonal_mul_diagonal, ← diagonal_one]
  congr 1; funext i; exact mul_inv_cancel₀ (h i)

theorem DiagT.quot_some {x y : K} (h : y ≠ 0) : MatT.quot x y = some (x / y) := by unfold MatT.quot; rw [if_neg h]
theorem DiagT.quot_zero (x : K) : MatT.quot x 0 = none := by unfold MatT.quot; rw [if_pos rfl]

/-- Sums, differences, products and quotients of diagonal matrices and with scalars. -/
theorem C84_operators {d e : DiagT K n} {D E : Fin n → K} (hd : Is1 d D) (he : Is1 e E) (s : K) :
    YieldsD (neg d) (-diagonal D) ∧ YieldsD (add d e) (diagonal D + diagonal E) ∧ YieldsD (sub d e) (diagonal D - diagonal E) ∧
    YieldsD (mul d e) (diagonal D * diagonal E) ∧ YieldsD (addS d s) (diagonal D + s • 1) ∧ YieldsD (subS d s) (diagonal D - s • 1) ∧
    YieldsD (sSub s d) (s • 1 - diagonal D) ∧ YieldsD (mulS d s) (s • diagonal D) ∧
    ((∀ i, E i ≠ 0) → YieldsD (div d e) (diagonal D * (diagonal E)⁻¹) ∧ YieldsD (sDiv s e) (s • (diagonal E)⁻¹)) ∧
    ((∃ i, E i = 0) → div d e = none ∧ sDiv s e = none) ∧
    (s ≠ 0 → YieldsD (divS d s) (s⁻¹ • diagonal D)) ∧ (s = 0 → 0 < n → divS d s = none) := by
  refine ⟨?_, ?_, ?_, ?_, ?_, ?_, ?_, ?_, ?_, ?_, ?_, ?_⟩
  · exact make_yields (fun i => -D i) (fun i => by rw [hd i]; rfl) (by ext i j; by_cases h : i = j <;> simp [h])
  · exact make_yields (fun i => D i + E i) (fun i => by rw [hd i, he i]; rfl) (diagonal_add D E)
  · exact make_yields (fun i => D i - E i) (fun i => by rw [hd i, he i]; rfl) (by ext i j; by_cases h : i = j <;> simp [h])
  · exact make_yields (fun i => D i * E i) (fun i => by rw [hd i, he i]; rfl) (diagonal_mul_diagonal D E)
  · exact make_yields (fun i => D i + s) (fun i => by rw [hd i]; rfl) (diag_add_one D s)
  · exact make_yields (fun i => D i - s) (fun i => by rw [hd i]; rfl) (by ext i j; by_cases h : i = j <;> simp [h])
  · exact make_yields (fun i => s - D i) (fun i => by rw [hd i]; rfl) (by ext i j; by_cases h : i = j <;> simp [h])
  · exact make_yields (fun i => D i * s) (fun i => by rw [hd i]; rfl) (by ext i j; by_cases h : i = j <;> simp [h, mul_comm])
  · intro h
    rw [diag_inv E h]
    refine ⟨make_yields (fun i => D i / E i) (fun i => by rw [hd i, he i]; simp only [Option.bind_some]; exact quot_some (h i)) ?_,
      make_yields (fun i => s / E i) (fun i => by rw [he i, Option.bind_some]; exact quot_some (h i)) ?_⟩
    · rw [diagonal_mul_diagonal]; simp only [div_eq_mul_inv]
    · ext i j; by_cases h : i = j <;> simp [h, div_eq_mul_inv]
  · rintro ⟨i, h⟩
    refine ⟨make_none _ i ?_, make_none _ i ?_⟩
    · rw [hd i, he i, h]; simp only [Option.bind_some]; exact quot_zero _
    · rw [he i, h]; simp only [Option.bind_some]; exact quot_zero _
  · intro h
    exact make_yields (fun i => D i / s) (fun i => by rw [hd i, Option.bind_some]; exact quot_some h)
      (by ext i j; by_cases h : i = j <;> simp [h, div_eq_mul_inv, mul_comm])
  · intro h hn
    exact make_none _ ⟨0, hn⟩ (by rw [hd ⟨0, hn⟩, h, Option.bind_some]; exact quot_zero _)

/-- Compound assignments; the argument may be the object itself. -/
theorem C84_assign {d e : DiagT K n} {D E : Fin n → K} (hd : Is1 d D) (he : Is1 e E) (s : K) :
    YieldsD (addAssign d e) (diagonal D + diagonal E) ∧ YieldsD (subAssign d e) (diagonal D - diagonal E) ∧
    YieldsD (mulAssign d e) (diagonal D * diagonal E) ∧
    YieldsD (selfAssign (fun x y => some (x + y)) d) (diagonal D + diagonal D) ∧
    YieldsD (selfAssign (fun x y => some (x - y)) d) 0 ∧ YieldsD (selfAssign (fun x y => some (x * y)) d) (diagonal D ^ 2) ∧
    YieldsD (addAssignS d s) (diagonal D + s • 1) ∧ YieldsD (subAssignS d s) (diagonal D - s • 1) ∧ YieldsD (mulAssignS d s) (s • diagonal D) ∧
    ((∀ i, E i ≠ 0) → YieldsD (divAssign d e) (diagonal D * (diagonal E)⁻¹) ∧ YieldsD (selfAssign MatT.quot e) 1) ∧
    ((∃ i, E i = 0) → divAssign d e = none) ∧ (s ≠ 0 → YieldsD (divAssignS d s) (s⁻¹ • diagonal D)) ∧
    (s = 0 → 0 < n → divAssignS d s = none) := by
  refine ⟨?_, ?_, ?_, ?_, ?_, ?_, ?_, ?_, ?_, ?_, ?_, ?_, ?_⟩
  · exact update_yields hd (fun i => D i + E i) (fun i r _ => by rw [he i]; rfl) (diagonal_add D E)
  · exact update_yields hd (fun i => D i - E i) (fun i r _ => by rw [he i]; rfl) (by ext i j; by_cases h : i = j <;> simp [h])
  · exact update_yields hd (fun i => D i * E i) (fun i r _ => by rw [he i]; rfl) (diagonal_mul_diagonal D E)
  · exact update_yields hd (fun i => D i + D i) (fun i r hr => by rw [hr]; rfl) (diagonal_add D D)
  · exact update_yields hd (fun i => D i - D i) (fun i r hr => by rw [hr]; rfl) (by ext i j; by_cases h : i = j <;> simp [h])
  · exact update_yields hd (fun i => D i * D i) (fun i r hr => by rw [hr]; rfl) (by rw [pow_two, diagonal_mul_diagonal])
  · exact update_yields hd (fun i => D i + s) (fun i r _ => rfl) (diag_add_one D s)
  · exact update_yields hd (fun i => D i - s) (fun i r _ => rfl) (by ext i j; by_cases h : i = j <;> simp [h])
  · exact update_yields hd (fun i => D i * s) (fun i r _ => rfl) (by ext i j; by_cases h : i = j <;> simp [h, mul_comm])
  · intro h
    rw [diag_inv E h]
    refine ⟨update_yields hd (fun i => D i / E i) (fun i r _ => by rw [he i, Option.bind_some]; exact quot_some (h i)) ?_,
      update_yields he (fun i => E i / E i) (fun i r hr => by rw [hr, Option.bind_some]; exact quot_some (h i)) ?_⟩
    · rw [diagonal_mul_diagonal]; simp only [div_eq_mul_inv]
    · rw [← diagonal_one]; congr 1; funext i; exact (div_self (h i)).symm
  · rintro ⟨i, h⟩
    exact update_none _ i (fun r x => by rw [he i, h, Option.bind_some]; exact quot_zero _)
  · intro h
    exact update_yields hd (fun i => D i / s) (fun i r _ => quot_some h) (by ext i j; by_cases h : i = j <;> simp [h, div_eq_mul_inv, mul_comm])
  · intro h hn
    exact update_none _ ⟨0, hn⟩ (fun r x => by rw [h]; exact quot_zero _)

/-- The elements, rows and columns, conversion to and from matrices, constants and lists. -/
theorem C84_elements {d : DiagT K n} {D : Fin n → K} (hd : Is1 d D) {a : MatT K n n} {A : Matrix (Fin n) (Fin n) K} (ha : a.Is A)
    (u : MatT K n n) (s : K) :
    (∀ i j : Fin n, e d i j = some (diagonal D i j)) ∧ (∀ i : Fin n, MatT.Yields (row d i) (fun _ j => diagonal D i j)) ∧
    (∀ i : Fin n, MatT.Yields (column d i) (fun j _ => diagonal D j i)) ∧ MatT.Yields (toMatrix d u) (diagonal D) ∧
    YieldsD (ofMatrix a) (diagonal A.diag) ∧ YieldsD (const n s) (s • 1) ∧
    (∀ l : List K, l.length = n → YieldsD (DiagT.ofList l) (diagonal fun i : Fin n => l.getD i 0)) ∧
    ∀ l : List K, l.length ≠ n → (DiagT.ofList l : Option (DiagT K n)) = none := by
  have zero := fun (k l : ℕ) => (C83_scalar (n := 1) (m := l) (a := ⟨fun _ => some 0⟩) (A := 0) (fun i j => by
    unfold MatT.e MatT.at'; rw [if_pos (MatT.idx_lt i.2 j.2)]; rfl) (0 : K) MatT.unset MatT.unset).2.1
  refine ⟨?_, ?_, ?_, ?_, ?_, ?_, ?_, ?_⟩
  · intro i j
    unfold DiagT.e
    by_cases h : i = j
    · subst h; rw [if_pos rfl, hd i, diagonal_apply_eq]
    · rw [if_neg (fun e => h (Fin.ext e)), diagonal_apply_ne _ h]
  · intro i
    obtain ⟨z, hz, hZ⟩ : MatT.Yields (MatT.setZero (MatT.unset : MatT K 1 n)) 0 := zero 0 n
    obtain ⟨r, hr, h1, h2⟩ := MatT.put_some z (k := i) (by simp) (D i)
    refine ⟨r, by unfold DiagT.row; rw [hz, Option.bind_some, hd i, Option.bind_some]; exact hr, fun x j => ?_⟩
    have hx : x = 0 := Subsingleton.elim _ _
    subst hx
    unfold MatT.e
    simp only [Fin.val_zero, zero_mul, zero_add]
    by_cases h : i = j
    · subst h; rw [h1, diagonal_apply_eq]
    · rw [h2 _ (fun e => h (Fin.ext e.symm)), diagonal_apply_ne _ h]
      have := hZ 0 j
      unfold MatT.e at this
      simpa using this
  · intro i
    obtain ⟨z, hz, hZ⟩ : MatT.Yields (MatT.setZero (MatT.unset : MatT K n 1)) 0 := by
      obtain ⟨r, hr, h1⟩ := MatT.fillFlat (MatT.unset : MatT K n 1) (fun _ => (0 : K)) (fun i r => r.put i 0) (fun k hk s _ => rfl)
      exact ⟨r, hr, MatT.Is.flat (fun _ _ => 0) h1 (fun i j => rfl)⟩
    obtain ⟨r, hr, h1, h2⟩ := MatT.put_some z (k := i) (by simp) (D i)
    refine ⟨r, by unfold DiagT.column; rw [hz, Option.bind_some, hd i, Option.bind_some]; exact hr, fun j x => ?_⟩
    have hx : x = 0 := Subsingleton.elim _ _
    subst hx
    unfold MatT.e
    simp only [Fin.val_zero, mul_one, add_zero]
    by_cases h : j = i
    · subst h; rw [h1, diagonal_apply_eq]
    · rw [h2 _ (fun e => h (Fin.ext e)), diagonal_apply_ne _ h]
      have := hZ j 0
      unfold MatT.e at this
      simpa using this
  · obtain ⟨r, hr, h1⟩ := MatT.fill2 u (fun i j => if i = j then ex1 D i else 0)
      (fun i j r => if i = j then (MatT.at' d i).bind fun x => r.setE i j x else r.setE i j 0) (fun i hi j hj t _ => by
        by_cases h : i = j
        · simp only [if_pos h]; rw [hd.at' hi]; rfl
        · simp only [if_neg h])
    exact ⟨r, hr, MatT.Is.of _ h1 (fun i j => by simp [diagonal_apply, Fin.ext_iff])⟩
  · exact make_yields (fun i => A i i) (fun i => by exact ha i i) rfl
  · exact make_yields (fun _ => s) (fun _ => rfl) (by ext i j; by_cases h : i = j <;> simp [h])
  · intro l hl
    unfold DiagT.ofList
    rw [if_pos hl]
    exact make_yields (fun i => l.getD i 0) (fun i => by
      rw [List.getD_eq_getElem?_getD, List.getElem?_eq_getElem (by omega)]; rfl) rfl
  · intro l hl
    unfold DiagT.ofList; rw [if_neg hl]

theorem DiagT.onDiagonal_yields {d : DiagT K n} {D : Fin n → K} (hd : Is1 d D) {a : MatT K n n} {A : Matrix (Fin n) (Fin n) K} (ha : a.Is A)
    (op : K → K → K) : MatT.Yields (onDiagonal op d a) (fun i j => if i = j then op (A i j) (D i) else A i j) := by
  have inj : ∀ k < n, ∀ l < n, k * n + k = l * n + l → k = l := fun k hk l hl e => (MatT.idx_inj hk hl e).1
  obtain ⟨r, hr, h1, h2⟩ := MatT.fillPos n a (fun i => i * n + i) (fun i => op (MatT.ex A i i) (ex1 D i))
    (fun i r => (MatT.at' d i).bind fun y => r.upd (i * n + i) fun x => some (op x y)) (fun i hi => MatT.idx_lt hi hi) inj
    (fun i hi t _ h2 => by
      rw [hd.at' hi, Option.bind_some,
        MatT.upd_eq t ((h2 _ (fun x hx e => by have := inj x (by omega) i hi e; omega)).trans (ha.e hi hi))]
      rfl)
  refine ⟨r, hr, fun i j => ?_⟩
  by_cases e : i = j
  · subst e
    simp only [if_true]
    have := h1 i i.2
    simp only [MatT.ex_val, ex1_val] at this
    exact this
  · simp only [if_neg e]
    rw [← ha i j]
    exact h2 _ (fun x hx e' => e (Fin.ext (by have := MatT.idx_inj hx j.2 e'; omega)))

/-- Diagonal matrices with matrices: sums and differences, products and quotients of square matrices, compound assignments of any matrix. -/
theorem C84_matrix {d : DiagT K n} {D : Fin n → K} (hd : Is1 d D) {a : MatT K n n} {A : Matrix (Fin n) (Fin n) K} (ha : a.Is A)
    {b : MatT K m n} {B : Matrix (Fin m) (Fin n) K} (hb : b.Is B) :
    MatT.Yields (addM d a) (diagonal D + A) ∧ MatT.Yields (subM d a) (diagonal D - A) ∧ MatT.Yields (mSub a d) (A - diagonal D) ∧
    MatT.Yields (mulM d a) (diagonal D * A) ∧ MatT.Yields (mMul a d) (A * diagonal D) ∧ MatT.Yields (mMulAssign b d) (B * diagonal D) ∧
    ((∀ i, D i ≠ 0) → MatT.Yields (mDiv a d) (A * (diagonal D)⁻¹) ∧ MatT.Yields (mDivAssign b d) (B * (diagonal D)⁻¹)) := by
  refine ⟨?_, ?_, ?_, ?_, ?_, ?_, ?_⟩
  · have := onDiagonal_yields hd ha (fun x y => x + y)
    rw [show diagonal D + A = fun i j => if i = j then A i j + D i else A i j from by
      ext i j; by_cases h : i = j <;> simp [h, add_comm]]
    exact this
  · obtain ⟨t, ht, hT⟩ := (C83_linear ha ha 0).1
    have := onDiagonal_yields hd hT (fun x y => x + y)
    rw [show diagonal D - A = fun i j => if i = j then (-A) i j + D i else (-A) i j from by
      ext i j; by_cases h : i = j <;> simp [h]; ring]
    unfold subM; rw [ht]; exact this
  · have := onDiagonal_yields hd ha (fun x y => x - y)
    rw [show A - diagonal D = fun i j => if i = j then A i j - D i else A i j from by
      ext i j; by_cases h : i = j <;> simp [h]]
    exact this
  · obtain ⟨r, hr, h1⟩ := MatT.fill2 (MatT.unset : MatT K n n) (fun i j => ex1 D i * MatT.ex A i j)
      (fun i j r => (MatT.at' d i).bind fun x => (a.e i j).bind fun y => r.setE i j (x * y)) (fun i hi j hj t _ => by
        rw [hd.at' hi, ha.e hi hj]; rfl)
    exact ⟨r, hr, MatT.Is.of _ h1 (fun i j => by rw [diagonal_mul, ex1_val, MatT.ex_val])⟩
  · obtain ⟨r, hr, h1⟩ := MatT.fill2 (MatT.unset : MatT K n n) (fun i j => MatT.ex A i j * ex1 D j)
      (fun i j r => (a.e i j).bind fun x => (MatT.at' d j).bind fun y => r.setE i j (x * y)) (fun i hi j hj t _ => by
        rw [hd.at' hj, ha.e hi hj]; rfl)
    exact ⟨r, hr, MatT.Is.of _ h1 (fun i j => by rw [mul_diagonal, ex1_val, MatT.ex_val])⟩
  · obtain ⟨r, hr, h1⟩ := MatT.fill2 b (fun i j => MatT.ex B i j * ex1 D j)
      (fun i j r => (MatT.at' d j).bind fun y => r.upd (i * n + j) fun x => some (x * y)) (fun i hi j hj t ht => by
        rw [hd.at' hj, Option.bind_some, MatT.upd_eq t (ht.trans (hb.e hi hj))]; rfl)
    exact ⟨r, hr, MatT.Is.of _ h1 (fun i j => by rw [mul_diagonal, ex1_val, MatT.ex_val])⟩
  · intro h
    have hq : ∀ j < n, ∀ x, MatT.quot x (ex1 D j) = some (x / ex1 D j) := fun j hj x => quot_some (by
      have := ex1_val D ⟨j, hj⟩; simp only at this; rw [this]; exact h _)
    rw [diag_inv D h]
    constructor
    · obtain ⟨r, hr, h1⟩ := MatT.fill2 (MatT.unset : MatT K n n) (fun i j => MatT.ex A i j / ex1 D j)
        (fun i j r => (a.e i j).bind fun x => (MatT.at' d j).bind fun y => (MatT.quot x y).bind fun v => r.setE i j v) (fun i hi j hj t _ => by
          rw [hd.at' hj, ha.e hi hj]; simp only [Option.bind_some]; rw [hq j hj]; rfl)
      exact ⟨r, hr, MatT.Is.of _ h1 (fun i j => by rw [mul_diagonal, ex1_val, MatT.ex_val, div_eq_mul_inv])⟩
    · obtain ⟨r, hr, h1⟩ := MatT.fill2 b (fun i j => MatT.ex B i j / ex1 D j)
        (fun i j r => (MatT.at' d j).bind fun y => r.upd (i * n + j) fun x => MatT.quot x y) (fun i hi j hj t ht => by
          rw [hd.at' hj, Option.bind_some, MatT.upd_eq t (ht.trans (hb.e hi hj)), hq j hj]; rfl)
      exact ⟨r, hr, MatT.Is.of _ h1 (fun i j => by rw [mul_diagonal, ex1_val, MatT.ex_val, div_eq_mul_inv])⟩

/-- Comparison with diagonal matrices and matrices of any size. -/
theorem C84_compare {d : DiagT K n} {D : Fin n → K} (hd : Is1 d D) {e : DiagT K n} {E : Fin n → K} (he : Is1 e E)
    {a : MatT K n n} {A : Matrix (Fin n) (Fin n) K} (ha : a.Is A) :
    (∃ t, eqD d e = some t ∧ (t = true ↔ diagonal D = diagonal E)) ∧ (∃ t, DiagT.eqM d a = some t ∧ (t = true ↔ diagonal D = A)) ∧
    (∀ (k : ℕ) (f : DiagT K k), k ≠ n → eqD d f = some false) ∧
    ∀ (k l : ℕ) (b : MatT K k l), (k ≠ n ∨ l ≠ n) → DiagT.eqM d b = some false := by
  classical
  refine ⟨?_, ?_, ?_, ?_⟩
  · obtain ⟨t, ht, h⟩ := runLoop_inv (n := n) (s0 := true)
      (f := fun i t => if t then (MatT.at' d i).bind fun x => (MatT.at' e i).map fun y => decide (x = y) else some false)
      (fun k t => t = true ↔ ∀ x < k, ex1 D x = ex1 E x) (by simp) (fun k hk t ht => by
        by_cases h : t = true
        · subst h
          refine ⟨decide (ex1 D k = ex1 E k), by rw [if_pos rfl, hd.at' hk, he.at' hk]; rfl, ?_⟩
          rw [decide_eq_true_iff]
          refine ⟨fun e x hx => ?_, fun e => e k (by omega)⟩
          by_cases hxk : x = k
          · rw [hxk]; exact e
          · exact ht.1 rfl x (by omega)
        · refine ⟨false, by rw [if_neg h], ?_⟩
          refine ⟨fun e => (by cases e), fun e => absurd (ht.2 fun x hx => e x (by omega)) h⟩)
    refine ⟨t, by unfold eqD; rw [if_neg (fun h => h rfl)]; convert ht using 4, h.trans ⟨fun e => ?_, fun e x hx => ?_⟩⟩
    · congr 1; funext i
      have := e i i.2
      rw [ex1_val, ex1_val] at this; exact this
    · rw [diagonal_injective e]
  · obtain ⟨t, ht, h⟩ := runLoop_inv (n := n * n) (s0 := true)
      (f := fun k t => if t then (if k / n = k % n then (MatT.at' d (k / n)).bind fun x => (a.e (k / n) (k / n)).map fun y => decide (x = y)
        else (a.e (k / n) (k % n)).map fun y => decide (y = (0 : K))) else some false)
      (fun k t => t = true ↔ ∀ x < k, MatT.ex A (x / n) (x % n) = if x / n = x % n then ex1 D (x / n) else 0) (by simp) (fun k hk t ht => by
        obtain ⟨h1, h2, -⟩ := MatT.idx_split hk
        by_cases h : t = true
        · subst h
          refine ⟨decide (MatT.ex A (k / n) (k % n) = if k / n = k % n then ex1 D (k / n) else 0), ?_, ?_⟩
          · rw [if_pos rfl]
            by_cases hh : k / n = k % n
            · simp only [if_pos hh]
              rw [hd.at' h1, ha.e h1 h1]
              simp only [Option.bind_some, Option.map_some, ← hh]
              congr 1
              exact decide_eq_decide.2 eq_comm
            · simp only [if_neg hh]
              rw [ha.e h1 h2]; rfl
          rw [decide_eq_true_iff]
          refine ⟨fun e x hx => ?_, fun e => e k (by omega)⟩
          by_cases hxk : x = k
          · rw [hxk]; exact e
          · exact ht.1 rfl x (by omega)
        · refine ⟨false, by rw [if_neg h], ?_⟩
          refine ⟨fun e => (by cases e), fun e => absurd (ht.2 fun x hx => e x (by omega)) h⟩)
    refine ⟨t, by unfold DiagT.eqM; rw [if_neg (by simp), loop2_flat]; convert ht using 6, h.trans ⟨fun e => ?_, fun e x hx => ?_⟩⟩
    · ext i j
      have hm : 0 < n := j.pos
      have := e _ (MatT.idx_lt i.2 j.2)
      have e1 : (i.val * n + j.val) / n = i := by rw [Nat.add_comm, Nat.add_mul_div_right _ _ hm, Nat.div_eq_of_lt j.2]; omega
      have e2 : (i.val * n + j.val) % n = j := by rw [Nat.add_comm, Nat.add_mul_mod_self_right, Nat.mod_eq_of_lt j.2]
      rw [e1, e2, MatT.ex_val, ex1_val] at this
      rw [this, diagonal_apply]
      simp only [Fin.ext_iff]
    · obtain ⟨h1, h2, -⟩ := MatT.idx_split hx
      have e1 := MatT.ex_val A ⟨x / n, h1⟩ ⟨x % n, h2⟩
      have e2 := ex1_val D ⟨x / n, h1⟩
      simp only at e1 e2
      rw [e1, e2, ← e, diagonal_apply]
      simp only [Fin.ext_iff]
  · intro k f hk
    unfold eqD; rw [if_pos hk]
  · intro k l b h
    unfold DiagT.eqM; rw [if_pos h]

/-- Trace, determinant and adjoint. -/
theorem C84_values [StarRing K] {d : DiagT K n} {D : Fin n → K} (hd : Is1 d D) (hn : 0 < n) :
    DiagT.trace d = some (diagonal D).trace ∧ DiagT.det d = some (diagonal D).det ∧ YieldsD (DiagT.dagger d) (diagonal D).conjTranspose := by
  refine ⟨?_, ?_, ?_⟩
  · unfold DiagT.trace
    rw [hd.at' hn, Option.bind_some]
    rw [fold_first hd (fun t x => t + x) (fun k => ∑ i ∈ Finset.range (k + 1), ex1 D i) (fun i hi => by
      rw [Finset.sum_range_succ _ (i + 1)]; congr 1; exact ex1_val D ⟨i + 1, hi⟩) _ (by simp)]
    rw [show n - 1 + 1 = n by omega, Finset.sum_range, trace_diagonal]
    simp
  · unfold DiagT.det
    rw [hd.at' hn, Option.bind_some]
    rw [fold_first hd (fun t x => t * x) (fun k => ∏ i ∈ Finset.range (k + 1), ex1 D i) (fun i hi => by
      rw [Finset.prod_range_succ _ (i + 1)]; congr 1; exact ex1_val D ⟨i + 1, hi⟩) _ (by simp)]
    rw [show n - 1 + 1 = n by omega, Finset.prod_range, det_diagonal]
    simp
  · exact make_yields (fun i => star (D i)) (fun i => by rw [hd i]; rfl) (by rw [diagonal_conjTranspose]; rfl)

/-- The product with a matrix that is not square has the wrong size: elements are never set, or written out of bounds. -/
theorem C84_shape_wrong {d : DiagT K n} {D : Fin n → K} (hd : Is1 d D) (hn : 0 < n) {b : MatT K n m} {B : Matrix (Fin n) (Fin m) K} (hb : b.Is B)
    {c : MatT K m n} {C : Matrix (Fin m) (Fin n) K} (hc : c.Is C) :
    (m < n → (∃ r, mulM d b = some r ∧ (∀ (i : Fin n) (j : Fin m), r.e i j = some ((diagonal D * B) i j)) ∧
        ∀ (i : Fin n) (j : Fin n), m ≤ j.val → r.e i j = none) ∧
      ∃ r, mMul c d = some r ∧ (∀ (i : Fin m) (j : Fin n), r.e i j = some ((C * diagonal D) i j)) ∧
        ∀ (i : Fin n) (j : Fin n), m ≤ i.val → r.e i j = none) ∧
    (n < m → mulM d b = none ∧ mMul c d = none) := by
  have un : ∀ k, MatT.at' (MatT.unset : MatT K n n) k = none := fun k => by unfold MatT.at' MatT.unset; split <;> rfl
  refine ⟨fun h => ⟨?_, ?_⟩, fun h => ⟨?_, ?_⟩⟩
  · obtain ⟨r, hr, h1, h2⟩ := MatT.fillPos (n * m) (MatT.unset : MatT K n n) (fun k => k / m * n + k % m)
      (fun k => ex1 D (k / m) * MatT.ex B (k / m) (k % m))
      (fun k r => (MatT.at' d (k / m)).bind fun x => (b.e (k / m) (k % m)).bind fun y => r.setE (k / m) (k % m) (x * y))
      (fun k hk => by obtain ⟨x, y, -⟩ := MatT.idx_split hk; exact MatT.idx_lt x (by omega))
      (fun k hk l hl e => by
        obtain ⟨x, y, z⟩ := MatT.idx_split hk
        obtain ⟨x', y', z'⟩ := MatT.idx_split hl
        obtain ⟨e1, e2⟩ := MatT.idx_inj (by omega) (by omega) e
        rw [← z, ← z', e1, e2])
      (fun k hk s _ _ => by
        obtain ⟨x, y, -⟩ := MatT.idx_split hk
        rw [hd.at' x, hb.e x y]; rfl)
    refine ⟨r, by unfold mulM; rw [loop2_flat]; exact hr, fun i j => ?_, fun i j hj => ?_⟩
    · have hm : 0 < m := j.pos
      have := h1 _ (MatT.idx_lt i.2 j.2)
      have e1 : (i.val * m + j.val) / m = i := by rw [Nat.add_comm, Nat.add_mul_div_right _ _ hm, Nat.div_eq_of_lt j.2]; omega
      have e2 : (i.val * m + j.val) % m = j := by rw [Nat.add_comm, Nat.add_mul_mod_self_right, Nat.mod_eq_of_lt j.2]
      simp only [e1, e2, MatT.ex_val, ex1_val] at this
      rw [diagonal_mul]; exact this
    · have := h2 (i.val * n + j.val) (fun x hx e => by
        obtain ⟨_, y, -⟩ := MatT.idx_split hx
        have := (MatT.idx_inj (by omega) j.2 e).2
        omega)
      unfold MatT.e; rw [this, un]
  · obtain ⟨r, hr, h1, h2⟩ := MatT.fillPos (m * n) (MatT.unset : MatT K n n) id
      (fun k => MatT.ex C (k / n) (k % n) * ex1 D (k % n))
      (fun k r => (c.e (k / n) (k % n)).bind fun x => (MatT.at' d (k % n)).bind fun y => r.setE (k / n) (k % n) (x * y))
      (fun k hk => lt_of_lt_of_le hk (Nat.mul_le_mul_right n h.le)) (fun _ _ _ _ h => h)
      (fun k hk s _ _ => by
        obtain ⟨x, y, z⟩ := MatT.idx_split hk
        rw [hd.at' y, hc.e x y]
        simp only [Option.bind_some]
        unfold MatT.setE; rw [z]; rfl)
    refine ⟨r, by unfold mMul; rw [loop2_flat]; exact hr, fun i j => ?_, fun i j hj => ?_⟩
    · have := h1 _ (MatT.idx_lt i.2 j.2)
      have e1 : (i.val * n + j.val) / n = i := by rw [Nat.add_comm, Nat.add_mul_div_right _ _ hn, Nat.div_eq_of_lt j.2]; omega
      have e2 : (i.val * n + j.val) % n = j := by rw [Nat.add_comm, Nat.add_mul_mod_self_right, Nat.mod_eq_of_lt j.2]
      simp only [e1, e2, MatT.ex_val, ex1_val] at this
      rw [mul_diagonal]; exact this
    · have := h2 (i.val * n + j.val) (fun x hx e => by
        have := Nat.mul_le_mul_right n hj
        simp only [id] at e
        omega)
      unfold MatT.e; rw [this, un]
  · unfold mulM
    rw [loop2_flat]
    apply runLoop_none _ _ ((n - 1) * m + (m - 1)) (MatT.idx_lt (by omega) (by omega))
    intro s
    have e1 : ((n - 1) * m + (m - 1)) / m = n - 1 := by
      rw [Nat.add_comm, Nat.add_mul_div_right _ _ (by omega), Nat.div_eq_of_lt (by omega)]; omega
    have e2 : ((n - 1) * m + (m - 1)) % m = m - 1 := by rw [Nat.add_comm, Nat.add_mul_mod_self_right, Nat.mod_eq_of_lt (by omega)]
    rw [e1, e2, hd.at' (by omega : n - 1 < n), hb.e (by omega) (by omega)]
    simp only [Option.bind_some]
    unfold MatT.setE MatT.put
    rw [if_neg]
    have : (n - 1) * n + n = n * n := by rw [← Nat.succ_mul]; congr 1; omega
    omega
  · unfold mMul
    rw [loop2_flat]
    apply runLoop_none _ _ (n * n + 0) (MatT.idx_lt h hn)
    intro s
    have e1 : (n * n + 0) / n = n := by rw [Nat.add_comm, Nat.add_mul_div_right _ _ hn, Nat.div_eq_of_lt hn]; omega
    have e2 : (n * n + 0) % n = 0 := by rw [Nat.add_comm, Nat.add_mul_mod_self_right, Nat.mod_eq_of_lt hn]
    rw [e1, e2, hd.at' hn, hc.e h hn]
    simp only [Option.bind_some]
    unfold MatT.setE MatT.put
    rw [if_neg (by omega)]

/-- `d /= d.e(k)` and `d *= d.e(k)`: from the element `k` on the argument has changed. -/
theorem C84_alias {d : DiagT K n} {D : Fin n → K} (hd : Is1 d D) (k : Fin n) :
    (∃ r, mulAssignRef d k = some r ∧ Is1 r fun i => if i ≤ k then D i * D k else D i * (D k * D k)) ∧
    (D k ≠ 0 → ∃ r, divAssignRef d k = some r ∧ Is1 r fun i => if i ≤ k then D i / D k else D i) := by
  refine ⟨update_some hd _ _ (fun i r h1 h2 => ?_), fun h0 => update_some hd _ _ (fun i r h1 h2 => ?_)⟩
  · by_cases h : i ≤ k
    · rw [h2 k h, if_pos h]; rfl
    · rw [h1 k (not_le.1 h), if_neg h]; simp
  · by_cases h : i ≤ k
    · rw [h2 k h, if_pos h, Option.bind_some]; exact quot_some h0
    · rw [h1 k (not_le.1 h), if_neg h, if_pos (le_refl k), Option.bind_some, div_self h0, quot_some one_ne_zero, div_one]

end

/-- The matrix with the elements 2 and 3 divided by its first element: the second stays 3. -/
theorem C84_alias_wrong : ∃ d : DiagT ℚ 2, Is1 d ![2, 3] ∧ YieldsD (divAssignRef d 0) (diagonal ![1, 3]) ∧
    YieldsD (divAssignS d 2) (diagonal ![1, 3 / 2]) := by
  have hd : Is1 (⟨fun k => [2, 3][k]?⟩ : DiagT ℚ 2) ![2, 3] := fun i => by fin_cases i <;> rfl
  refine ⟨_, hd, ?_, ?_⟩
  · obtain ⟨r, hr, h⟩ := (C84_alias hd 0).2 (by norm_num)
    refine ⟨r, _, hr, h, ?_⟩
    congr 1; funext i; fin_cases i <;> simp
  · obtain ⟨r, E, hr, h, e⟩ := (C84_assign hd hd 2).2.2.2.2.2.2.2.2.2.2.2.1 (by norm_num)
    refine ⟨r, E, hr, h, ?_⟩
    rw [← e]
    ext i j; fin_cases i <;> fin_cases j <;> norm_num

/-- Norms, parts and absolute values of real and complex diagonal matrices; the exponential is that of the matrix. -/
theorem C84_exp [RCLike K] {d : DiagT K n} {D : Fin n → K} (hd : Is1 d D) :
    YieldsD (DiagT.exp d) (NormedSpace.exp (diagonal D)) ∧ DiagT.squarenorm d = some (∑ i, ‖D i‖ ^ 2) ∧
    (∃ r, DiagT.abs d = some r ∧ Is1 r fun i => ‖D i‖) ∧ (∃ r, DiagT.real d = some r ∧ Is1 r fun i => RCLike.re (D i)) ∧
    ∃ r, DiagT.imag d = some r ∧ Is1 r fun i => RCLike.im (D i) := by
  refine ⟨?_, ?_, make_some _ _ (fun i => by rw [hd i]; rfl), make_some _ _ (fun i => by rw [hd i]; rfl), make_some _ _ (fun i => by rw [hd i]; rfl)⟩
  · refine update_yields hd (fun i => NormedSpace.exp (D i)) (fun i r _ => rfl) ?_
    letI : Algebra ℚ K := RestrictScalars.algebra ℚ ℝ K
    rw [Matrix.exp_diagonal]
    congr 1
    exact Pi.exp_def D
  · unfold DiagT.squarenorm
    have := runLoop_sum n (fun k => (MatT.at' d k).map fun x => RCLike.normSq x) (fun k => RCLike.normSq (ex1 D k))
      (fun k hk => by rw [hd.at' hk]; rfl) 0
    have e : (fun i t => (MatT.at' d i).map fun x => t + RCLike.normSq x) = fun i (t : ℝ) => ((MatT.at' d i).map fun x => RCLike.normSq x).map fun x => t + x := by
      funext i t
      cases MatT.at' d i <;> rfl
    rw [e, this, zero_add, Finset.sum_range]
    simp only [ex1_val, RCLike.normSq_eq_def']

/-- Largest and smallest element. -/
theorem C84_max {d : DiagT ℝ n} {D : Fin n → ℝ} (hd : Is1 d D) (hn : 0 < n) :
    (∃ i, DiagT.max d = some (D i) ∧ ∀ j, D j ≤ D i) ∧ ∃ i, DiagT.min d = some (D i) ∧ ∀ j, D i ≤ D j := by
  refine ⟨?_, ?_⟩
  · obtain ⟨t, ht, i, hi, h1, h2⟩ := runLoop_inv (n := n - 1) (s0 := ex1 D 0) (f := fun i t => (MatT.at' d (i + 1)).map fun x => if t < x then x else t)
      (fun k t => ∃ i : ℕ, i < n ∧ t = ex1 D i ∧ ∀ j ≤ k, ex1 D j ≤ t) ⟨0, hn, rfl, fun j hj => by
        have : j = 0 := by omega
        rw [this]⟩ (fun k hk t ht => by
        obtain ⟨i, hi, h1, h2⟩ := ht
        refine ⟨if t < ex1 D (k + 1) then ex1 D (k + 1) else t, by rw [hd.at' (by omega : k + 1 < n)]; rfl, ?_⟩
        by_cases h : t < ex1 D (k + 1)
        · refine ⟨k + 1, by omega, if_pos h, fun j hj => ?_⟩
          rw [if_pos h]
          by_cases e : j = k + 1
          · rw [e]
          · exact (h2 j (by omega)).trans h.le
        · refine ⟨i, hi, by rw [if_neg h, h1], fun j hj => ?_⟩
          rw [if_neg h]
          by_cases e : j = k + 1
          · rw [e]; exact not_lt.1 h
          · exact h2 j (by omega))
    refine ⟨⟨i, hi⟩, ?_, fun j => ?_⟩
    · unfold DiagT.max
      rw [hd.at' hn, Option.bind_some, ht, h1, ← ex1_val D ⟨i, hi⟩]
    · have := h2 j (by omega)
      rw [h1, ex1_val] at this
      rw [← ex1_val D ⟨i, hi⟩]; exact this
  · obtain ⟨t, ht, i, hi, h1, h2⟩ := runLoop_inv (n := n - 1) (s0 := ex1 D 0) (f := fun i t => (MatT.at' d (i + 1)).map fun x => if t > x then x else t)
      (fun k t => ∃ i : ℕ, i < n ∧ t = ex1 D i ∧ ∀ j ≤ k, t ≤ ex1 D j) ⟨0, hn, rfl, fun j hj => by
        have : j = 0 := by omega
        rw [this]⟩ (fun k hk t ht => by
        obtain ⟨i, hi, h1, h2⟩ := ht
        refine ⟨if t > ex1 D (k + 1) then ex1 D (k + 1) else t, by rw [hd.at' (by omega : k + 1 < n)]; rfl, ?_⟩
        by_cases h : t > ex1 D (k + 1)
        · refine ⟨k + 1, by omega, if_pos h, fun j hj => ?_⟩
          rw [if_pos h]
          by_cases e : j = k + 1
          · rw [e]
          · exact h.le.trans (h2 j (by omega))
        · refine ⟨i, hi, by rw [if_neg h, h1], fun j hj => ?_⟩
          rw [if_neg h]
          by_cases e : j = k + 1
          · rw [e]; exact not_lt.1 h
          · exact h2 j (by omega))
    refine ⟨⟨i, hi⟩, ?_, fun j => ?_⟩
    · unfold DiagT.min
      rw [hd.at' hn, Option.bind_some, ht, h1, ← ex1_val D ⟨i, hi⟩]
    · have := h2 j (by omega)
      rw [h1, ex1_val] at this
      rw [← ex1_val D ⟨i, hi⟩]; exact this

/-- Functions of real diagonal matrices, by the equations that define them as functions of matrices. -/
theorem C84_functions {d : DiagT ℝ n} {D : Fin n → ℝ} (hd : Is1 d D) :
    ((∀ i, 0 ≤ D i) → ∃ r E, DiagT.sqrt d = some r ∧ Is1 r E ∧ diagonal E ^ 2 = diagonal D ∧ ∀ i, 0 ≤ E i) ∧
    ((∃ i, D i < 0) → DiagT.sqrt d = none) ∧
    (∃ r E, DiagT.cbrt d = some r ∧ Is1 r E ∧ diagonal E ^ 3 = diagonal D) ∧
    ((∀ i, 0 < D i) → ∃ r E, DiagT.log d = some r ∧ Is1 r E ∧ NormedSpace.exp (diagonal E) = diagonal D) ∧
    ((∃ i, D i ≤ 0) → DiagT.log d = none) ∧
    (∃ r E s C, DiagT.sin d = some r ∧ Is1 r E ∧ DiagT.cos d = some s ∧ Is1 s C ∧ diagonal E ^ 2 + diagonal C ^ 2 = 1 ∧
      (∀ i, E i = Real.sin (D i)) ∧ ∀ i, C i = Real.cos (D i)) ∧
    (∃ r E s C t T, DiagT.sinh d = some r ∧ Is1 r E ∧ DiagT.cosh d = some s ∧ Is1 s C ∧ DiagT.tanh d = some t ∧ Is1 t T ∧
      diagonal E + diagonal C = NormedSpace.exp (diagonal D) ∧ diagonal C - diagonal E = NormedSpace.exp (-diagonal D) ∧
      diagonal T * diagonal C = diagonal E) ∧
    ((∀ i, -1 ≤ D i ∧ D i ≤ 1) → YieldsD ((DiagT.asin d).bind DiagT.sin) (diagonal D) ∧ YieldsD ((DiagT.acos d).bind DiagT.cos) (diagonal D) ∧
      (∃ r E, DiagT.asin d = some r ∧ Is1 r E ∧ ∀ i, -(Real.pi / 2) ≤ E i ∧ E i ≤ Real.pi / 2) ∧
      ∃ r E, DiagT.acos d = some r ∧ Is1 r E ∧ ∀ i, 0 ≤ E i ∧ E i ≤ Real.pi) ∧
    ((∃ i, D i < -1 ∨ 1 < D i) → DiagT.asin d = none ∧ DiagT.acos d = none) ∧
    YieldsD ((DiagT.asinh d).bind DiagT.sinh) (diagonal D) ∧
    (∀ k : ℕ, YieldsD (powZ d k) (diagonal D ^ k)) ∧
    ((∀ i, D i ≠ 0) → ∀ k : ℕ, YieldsD (powZ d (-(k : ℤ))) ((diagonal D)⁻¹ ^ k)) := by
  have app : ∀ {c : DiagT ℝ n} {C : Fin n → ℝ}, Is1 c C → ∀ (f : ℝ → Option ℝ) (g : Fin n → ℝ), (∀ i, f (C i) = some (g i)) →
      ∃ r, c.apply f = some r ∧ Is1 r g := fun {c C} hc f g h => update_some hc _ g (fun i r _ _ => h i)
  have none' : ∀ (f : ℝ → Option ℝ) (i : Fin n), f (D i) = none → d.apply f = none := fun f i h => by
    unfold DiagT.apply DiagT.update
    exact update_none' hd (fun x => f x) i h
  have ex : ∀ E : Fin n → ℝ, NormedSpace.exp (diagonal E) = diagonal fun i => Real.exp (E i) := fun E => by
    rw [Matrix.exp_diagonal]
    congr 1
    rw [Pi.exp_def]
    funext i
    exact congrFun Real.exp_eq_exp_ℝ.symm (E i)
  refine ⟨?_, ?_, ?_, ?_, ?_, ?_, ?_, ?_, ?_, ?_, ?_, ?_⟩
  · intro h
    obtain ⟨r, hr, h1⟩ := app hd (fun x => if x < 0 then none else some (Real.sqrt x)) (fun i => Real.sqrt (D i)) (fun i => if_neg (not_lt.2 (h i)))
    refine ⟨r, _, hr, h1, ?_, fun i => Real.sqrt_nonneg _⟩
    rw [diagonal_pow]; congr 1; funext i; exact Real.sq_sqrt (h i)
  · rintro ⟨i, h⟩
    exact none' _ i (if_pos h)
  · obtain ⟨r, hr, h1⟩ := app hd (fun x => some (SignType.sign x * |x| ^ (1 / 3 : ℝ))) (fun i => SignType.sign (D i) * |D i| ^ (1 / 3 : ℝ)) (fun i => rfl)
    refine ⟨r, _, hr, h1, ?_⟩
    rw [diagonal_pow]; congr 1; funext i
    have h3 : (|D i| ^ (1 / 3 : ℝ)) ^ 3 = |D i| := by
      rw [← Real.rpow_natCast, ← Real.rpow_mul (abs_nonneg _)]; norm_num
    simp only [Pi.pow_apply, mul_pow, h3]
    rcases lt_trichotomy (D i) 0 with h | h | h
    · rw [sign_neg h, abs_of_neg h]; norm_num
    · simp [h]
    · simp [sign_pos h, abs_of_pos h]
  · intro h
    obtain ⟨r, hr, h1⟩ := app hd (fun x => if x ≤ 0 then none else some (Real.log x)) (fun i => Real.log (D i)) (fun i => if_neg (not_le.2 (h i)))
    refine ⟨r, _, hr, h1, ?_⟩
    rw [ex]; congr 1; funext i; exact Real.exp_log (h i)
  · rintro ⟨i, h⟩
    exact none' _ i (if_pos h)
  · obtain ⟨r, hr, h1⟩ := app hd (fun x => some (Real.sin x)) (fun i => Real.sin (D i)) (fun i => rfl)
    obtain ⟨s, hs, h2⟩ := app hd (fun x => some (Real.cos x)) (fun i => Real.cos (D i)) (fun i => rfl)
    refine ⟨r, _, s, _, hr, h1, hs, h2, ?_, fun _ => rfl, fun _ => rfl⟩
    rw [diagonal_pow, diagonal_pow, diagonal_add, ← diagonal_one]
    congr 1; funext i; exact Real.sin_sq_add_cos_sq _
  · obtain ⟨r, hr, h1⟩ := app hd (fun x => some (Real.sinh x)) (fun i => Real.sinh (D i)) (fun i => rfl)
    obtain ⟨s, hs, h2⟩ := app hd (fun x => some (Real.cosh x)) (fun i => Real.cosh (D i)) (fun i => rfl)
    obtain ⟨t, ht, h3⟩ := app hd (fun x => some (Real.tanh x)) (fun i => Real.tanh (D i)) (fun i => rfl)
    refine ⟨r, _, s, _, t, _, hr, h1, hs, h2, ht, h3, ?_, ?_, ?_⟩
    · rw [ex, diagonal_add]; congr 1; funext i; rw [add_comm]; exact Real.cosh_add_sinh _
    · rw [show -diagonal D = diagonal fun i => -D i from by ext i j; by_cases h : i = j <;> simp [h], ex, diagonal_sub]
      congr 1; funext i; exact Real.cosh_sub_sinh _
    · rw [diagonal_mul_diagonal]; congr 1; funext i
      rw [Real.tanh_eq_sinh_div_cosh, div_mul_cancel₀ _ (Real.cosh_pos _).ne']
  · intro h
    refine ⟨?_, ?_, ?_, ?_⟩
    · obtain ⟨r, hr, h1⟩ := app hd (fun x => if x < -1 ∨ 1 < x then none else some (Real.arcsin x)) (fun i => Real.arcsin (D i))
        (fun i => if_neg (by have := h i; intro hh; rcases hh with hh | hh <;> linarith [this.1, this.2]))
      obtain ⟨s, hs, h2⟩ := app h1 (fun x => some (Real.sin x)) D (fun i => by rw [Real.sin_arcsin (h i).1 (h i).2])
      exact ⟨s, D, by unfold DiagT.asin; rw [hr]; exact hs, h2, rfl⟩
    · obtain ⟨r, hr, h1⟩ := app hd (fun x => if x < -1 ∨ 1 < x then none else some (Real.arccos x)) (fun i => Real.arccos (D i))
        (fun i => if_neg (by have := h i; intro hh; rcases hh with hh | hh <;> linarith [this.1, this.2]))
      obtain ⟨s, hs, h2⟩ := app h1 (fun x => some (Real.cos x)) D (fun i => by rw [Real.cos_arccos (h i).1 (h i).2])
      exact ⟨s, D, by unfold DiagT.acos; rw [hr]; exact hs, h2, rfl⟩
    · obtain ⟨r, hr, h1⟩ := app hd (fun x => if x < -1 ∨ 1 < x then none else some (Real.arcsin x)) (fun i => Real.arcsin (D i))
        (fun i => if_neg (by have := h i; intro hh; rcases hh with hh | hh <;> linarith [this.1, this.2]))
      exact ⟨r, _, hr, h1, fun i => ⟨Real.neg_pi_div_two_le_arcsin _, Real.arcsin_le_pi_div_two _⟩⟩
    · obtain ⟨r, hr, h1⟩ := app hd (fun x => if x < -1 ∨ 1 < x then none else some (Real.arccos x)) (fun i => Real.arccos (D i))
        (fun i => if_neg (by have := h i; intro hh; rcases hh with hh | hh <;> linarith [this.1, this.2]))
      exact ⟨r, _, hr, h1, fun i => ⟨Real.arccos_nonneg _, Real.arccos_le_pi _⟩⟩
  · rintro ⟨i, h⟩
    exact ⟨none' _ i (if_pos h), none' _ i (if_pos h)⟩
  · obtain ⟨r, hr, h1⟩ := app hd (fun x => some (Real.arsinh x)) (fun i => Real.arsinh (D i)) (fun i => rfl)
    obtain ⟨s, hs, h2⟩ := app h1 (fun x => some (Real.sinh x)) D (fun i => by rw [Real.sinh_arsinh])
    exact ⟨s, D, by unfold DiagT.asinh; rw [hr]; exact hs, h2, rfl⟩
  · intro k
    obtain ⟨r, hr, h1⟩ := app hd (fun x => if x = 0 ∧ (k : ℤ) < 0 then none else some (x ^ (k : ℤ))) (fun i => D i ^ k)
      (fun i => by rw [if_neg (fun h => by omega), zpow_natCast])
    exact ⟨r, _, hr, h1, by rw [diagonal_pow]; rfl⟩
  · intro h k
    obtain ⟨r, hr, h1⟩ := app hd (fun x => if x = 0 ∧ -(k : ℤ) < 0 then none else some (x ^ (-(k : ℤ)))) (fun i => (D i)⁻¹ ^ k)
      (fun i => by rw [if_neg (fun hh => h i hh.1), _root_.zpow_neg, _root_.zpow_natCast, _root_.inv_pow])
    exact ⟨r, _, hr, h1, by rw [diag_inv D h, diagonal_pow]; rfl⟩

/-- A diagonal matrix that meets the hypotheses of all functions. -/
example : ∃ d : DiagT ℝ 2, Is1 d ![1, 1 / 2] ∧ (∀ i, (![1, 1 / 2] : Fin 2 → ℝ) i ≠ 0 ∧ 0 < (![1, 1 / 2] : Fin 2 → ℝ) i ∧
    -1 ≤ (![1, 1 / 2] : Fin 2 → ℝ) i ∧ (![1, 1 / 2] : Fin 2 → ℝ) i ≤ 1) :=
  ⟨⟨fun k => [1, 1 / 2][k]?⟩, fun i => by fin_cases i <;> rfl, fun i => by fin_cases i <;> norm_num⟩

end Hila
