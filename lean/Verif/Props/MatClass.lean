import Verif.Lemmas.MatClass
import Mathlib.LinearAlgebra.Matrix.ConjTranspose
import Mathlib.Data.Complex.Basic
import Mathlib.Tactic.NormNum
import Mathlib.Tactic.FinCases
import Mathlib.LinearAlgebra.Matrix.Notation

/-!
# C83: the operators and functions of matrices and vectors
-/

namespace Hila
open MatT
variable {K : Type} {n m p : ℕ}

section
variable [Field K]

/-- Compound assignments, unary minus, sums and multiples are those of matrices; `a += a` and `a -= a` too. -/
theorem C83_linear {a b : MatT K n m} {A B : Matrix (Fin n) (Fin m) K} (ha : a.Is A) (hb : b.Is B) (s : K) :
    Yields a.neg (-A) ∧ Yields (a.addAssign b) (A + B) ∧ Yields a.addAssignSelf (A + A) ∧ Yields (a.subAssign b) (A - B) ∧
      Yields a.subAssignSelf 0 ∧ Yields (a.add b) (A + B) ∧ Yields (a.addCopy b) (A + B) ∧ Yields (a.sub b) (A - B) ∧
      Yields (a.mulAssignS s) (s • A) ∧ Yields (a.mulS s) (s • A) ∧ Yields (a.multS s b) (s • A) ∧
      Yields (a.multAddS s b) (B + s • A) ∧ Yields (a.multSubS s b) (B - s • A) ∧
      (s ≠ 0 → Yields (a.divAssignS s) (s⁻¹ • A) ∧ Yields (a.divS s) (s⁻¹ • A)) ∧
      (s = 0 → 0 < n → 0 < m → a.divAssignS s = none ∧ a.divS s = none) := by
  have flatU : ∀ (body : ℕ → MatT K n m → Option (MatT K n m)) (F : K → K → K),
      (∀ k < n * m, ∀ s : MatT K n m, s.at' k = a.at' k → body k s = s.put k (F (ex A (k / m) (k % m)) (ex B (k / m) (k % m)))) →
      Yields (runLoop (n * m) body a) (fun i j => F (A i j) (B i j)) := fun body F h => by
    obtain ⟨r, hr, h1⟩ := fillFlat a (fun k => F (ex A (k / m) (k % m)) (ex B (k / m) (k % m))) body h
    exact ⟨r, hr, Is.flat (fun i j => F (ex A i j) (ex B i j)) h1 (fun i j => by simp)⟩
  have two : ∀ (s0 : MatT K n m) (body : ℕ → ℕ → MatT K n m → Option (MatT K n m)) (F : K → K → K),
      (∀ i < n, ∀ j < m, ∀ s : MatT K n m, s.e i j = s0.e i j → body i j s = s.setE i j (F (ex A i j) (ex B i j))) →
      Yields (loop2 n m body s0) (fun i j => F (A i j) (B i j)) := fun s0 body F h => by
    obtain ⟨r, hr, h1⟩ := fill2 s0 (fun i j => F (ex A i j) (ex B i j)) body h
    exact ⟨r, hr, Is.of _ h1 (fun i j => by simp)⟩
  refine ⟨?_, ?_, ?_, ?_, ?_, ?_, ?_, ?_, ?_, ?_, ?_, ?_, ?_, ?_, ?_⟩
  · exact mapC_yields ha _ (fun x => -x) (fun _ => rfl)
  · exact flatU _ (fun x y => x + y) (fun k hk s hs => by
      rw [hb.at' hk, Option.bind_some, upd_eq s (hs.trans (ha.at' hk))]; rfl)
  · exact flatU _ (fun x _ => x + x) (fun k hk s hs => by
      rw [hs.trans (ha.at' hk), Option.bind_some, upd_eq s (hs.trans (ha.at' hk))]; rfl)
  · exact flatU _ (fun x y => x - y) (fun k hk s hs => by
      rw [hb.at' hk, Option.bind_some, upd_eq s (hs.trans (ha.at' hk))]; rfl)
  · exact flatU _ (fun _ _ => 0) (fun k hk s hs => by
      rw [hs.trans (ha.at' hk), Option.bind_some, upd_eq s (hs.trans (ha.at' hk)), sub_self]; rfl)
  · exact two _ _ (fun x y => x + y) (fun i hi j hj s hs => by rw [ha.e hi hj, hb.e hi hj]; rfl)
  · exact two a _ (fun x y => x + y) (fun i hi j hj s hs => by
      rw [hb.e hi hj, Option.bind_some, upd_eq s (hs.trans (ha.e hi hj))]; rfl)
  · exact two _ _ (fun x y => x - y) (fun i hi j hj s hs => by rw [ha.e hi hj, hb.e hi hj]; rfl)
  · have := updC_yields ha (fun x => some (x * s)) (fun x => x * s) (fun _ => rfl)
    rw [show s • A = fun i j => A i j * s from by ext i j; simp [mul_comm]]; exact this
  · have := mapC_yields ha (fun x => some (x * s)) (fun x => x * s) (fun _ => rfl)
    rw [show s • A = fun i j => A i j * s from by ext i j; simp [mul_comm]]; exact this
  · rw [show s • A = fun i j => A i j * s from by ext i j; simp [mul_comm]]
    exact two _ _ (fun x y => x * s) (fun i hi j hj t ht => by rw [ha.e hi hj]; rfl)
  · rw [show B + s • A = fun i j => B i j + A i j * s from by ext i j; simp [mul_comm]]
    exact two b _ (fun x y => y + x * s) (fun i hi j hj t ht => by
      rw [ha.e hi hj, Option.bind_some, upd_eq t (ht.trans (hb.e hi hj))]; rfl)
  · rw [show B - s • A = fun i j => B i j - A i j * s from by ext i j; simp [mul_comm]]
    exact two b _ (fun x y => y - x * s) (fun i hi j hj t ht => by
      rw [ha.e hi hj, Option.bind_some, upd_eq t (ht.trans (hb.e hi hj))]; rfl)
  · intro hs
    have hq : ∀ x, quot x s = some (x / s) := fun x => by unfold quot; rw [if_neg hs]
    rw [show s⁻¹ • A = fun i j => A i j / s from by ext i j; simp [div_eq_mul_inv, mul_comm]]
    exact ⟨updC_yields ha (fun x => quot x s) (fun x => x / s) hq, mapC_yields ha (fun x => quot x s) (fun x => x / s) hq⟩
  · intro hs hn hm
    have hq : ∀ x, quot x s = none := fun x => by unfold quot; rw [if_pos hs]
    have first : ∀ (S : Type) (f : ℕ → S → Option S) (N : ℕ) (s : S), f 0 s = none → runLoop (N + 1) f s = none := fun S f N => by
      induction N with
      | zero => intro s h; simp [runLoop, h]
      | succ N ih => intro s h; rw [runLoop, ih s h]; rfl
    obtain ⟨N, hN⟩ : ∃ N, n * m = N + 1 := ⟨n * m - 1, by have := Nat.mul_pos hn hm; omega⟩
    have h0 : a.at' 0 = some (ex A (0 / m) (0 % m)) := ha.at' (by omega)
    constructor
    · unfold divAssignS updC; rw [hN]
      exact first _ _ _ _ (by rw [upd_eq a h0, hq]; rfl)
    · unfold divS mapC; rw [hN]
      exact first _ _ _ _ (by rw [h0, Option.bind_some]; simp only [hq]; rfl)

/-- A number added to, subtracted from or assigned to a square matrix is that multiple of the unit matrix. -/
theorem C83_scalar {a : MatT K n n} {A : Matrix (Fin n) (Fin n) K} (ha : a.Is A) (s : K) (u : MatT K n n) (v : MatT K n m) :
    Yields (u.setScalar s) (s • 1) ∧ Yields v.setZero 0 ∧ Yields (v.fill s) (fun _ _ => s) ∧ Yields (a.addAssignS s) (A + s • 1) ∧
      Yields (a.subAssignS s) (A - s • 1) ∧ Yields (a.addS s) (A + s • 1) ∧ Yields (a.subS s) (A - s • 1) ∧
      Yields (sSub s a) (s • 1 - A) := by
  have diag : ∀ (body : ℕ → MatT K n n → Option (MatT K n n)) (F : K → K),
      (∀ i < n, ∀ t : MatT K n n, t.at' (i * n + i) = some (ex A i i) → body i t = t.put (i * n + i) (F (ex A i i))) →
      Yields (runLoop n body a) (fun i j => if i = j then F (A i j) else A i j) := fun body F h => by
    have inj : ∀ k < n, ∀ l < n, k * n + k = l * n + l → k = l := fun k hk l hl e => (idx_inj hk hl e).1
    obtain ⟨r, hr, h1, h2⟩ := fillPos n a (fun i => i * n + i) (fun i => F (ex A i i)) body (fun i hi => idx_lt hi hi) inj
      (fun i hi t _ h2 => h i hi t ((h2 _ (fun x hx e => by have := inj x (by omega) i hi e; omega)).trans (ha.e hi hi)))
    refine ⟨r, hr, fun i j => ?_⟩
    by_cases e : i = j
    · subst e
      simp only [if_true]
      have := h1 i i.2
      simp only [ex_val] at this
      exact this
    · simp only [if_neg e]
      rw [← ha i j]
      exact h2 _ (fun x hx e' => e (Fin.ext (by have := idx_inj hx j.2 e'; omega)))
  have two : ∀ (s0 : MatT K n n) (body : ℕ → ℕ → MatT K n n → Option (MatT K n n)) (F : Bool → K → K),
      (∀ i < n, ∀ j < n, ∀ s : MatT K n n, body i j s = s.setE i j (F (i = j) (ex A i j))) →
      Yields (loop2 n n body s0) (fun i j => F (i = j) (A i j)) := fun s0 body F h => by
    obtain ⟨r, hr, h1⟩ := fill2 s0 (fun i j => F (i = j) (ex A i j)) body (fun i hi j hj s _ => h i hi j hj s)
    exact ⟨r, hr, Is.of _ h1 (fun i j => by simp [Fin.ext_iff])⟩
  have put2 : ∀ (t : MatT K n n) (i j : ℕ) (x y : K) (f : K → K), i < n → j < n → f x = y →
      ((t.setE i j x).bind fun r => r.upd (i * n + j) fun x => some (f x)) = t.setE i j y := fun t i j x y f hi hj hf => by
    obtain ⟨r, hr, e1, -⟩ := put_some t (idx_lt hi hj) x
    unfold setE
    have := put_put t (i * n + j) x y
    rw [hr] at this ⊢
    rw [Option.bind_some, upd_eq r e1, Option.bind_some, hf]; exact this
  refine ⟨?_, ?_, ?_, ?_, ?_, ?_, ?_, ?_⟩
  · rw [show (s • 1 : Matrix (Fin n) (Fin n) K) = fun i j => if i = j then s else 0 from by
      ext i j; simp [Matrix.one_apply]]
    unfold setScalar
    have := two u (fun i j r => r.setE i j (if i = j then s else 0)) (fun d _ => if d = true then s else 0) (fun i hi j hj t => by simp)
    simpa using this
  · obtain ⟨r, hr, h1⟩ := fillFlat v (fun _ => (0 : K)) (fun i r => r.put i 0) (fun k hk s _ => rfl)
    exact ⟨r, hr, Is.flat (fun _ _ => 0) h1 (fun i j => rfl)⟩
  · obtain ⟨r, hr, h1⟩ := fillFlat v (fun _ => s) (fun i r => r.put i s) (fun k hk t _ => rfl)
    exact ⟨r, hr, Is.flat (fun _ _ => s) h1 (fun i j => rfl)⟩
  · rw [show A + s • 1 = fun i j => if i = j then A i j + s else A i j from by
      ext i j; by_cases h : i = j <;> simp [h]]
    exact diag _ (fun x => x + s) (fun i hi t ht => by rw [upd_eq t ht]; rfl)
  · rw [show A - s • 1 = fun i j => if i = j then A i j - s else A i j from by
      ext i j; by_cases h : i = j <;> simp [h]]
    exact diag _ (fun x => x - s) (fun i hi t ht => by rw [upd_eq t ht]; rfl)
  · rw [show A + s • 1 = fun i j => (fun (d : Bool) x => if d = true then x + s else x) (i = j) (A i j) from by
      ext i j; by_cases h : i = j <;> simp [h]]
    exact two unset _ (fun d x => if d = true then x + s else x) (fun i hi j hj t => by
      rw [ha.e hi hj, Option.bind_some]
      by_cases h : i = j
      · simp only [if_pos h]; rw [put2 t i j _ _ (fun x => x + s) hi hj rfl]; simp [h]
      · simp only [if_neg h]; simp [h])
  · rw [show A - s • 1 = fun i j => (fun (d : Bool) x => if d = true then x - s else x) (i = j) (A i j) from by
      ext i j; by_cases h : i = j <;> simp [h]]
    exact two unset _ (fun d x => if d = true then x - s else x) (fun i hi j hj t => by
      rw [ha.e hi hj, Option.bind_some]
      by_cases h : i = j
      · simp only [if_pos h]; rw [put2 t i j _ _ (fun x => x - s) hi hj rfl]; simp [h]
      · simp only [if_neg h]; simp [h])
  · rw [show s • 1 - A = fun i j => (fun (d : Bool) x => if d = true then -x + s else -x) (i = j) (A i j) from by
      ext i j; by_cases h : i = j <;> simp [h]; ring]
    exact two unset _ (fun d x => if d = true then -x + s else -x) (fun i hi j hj t => by
      rw [ha.e hi hj, Option.bind_some]
      by_cases h : i = j
      · simp only [if_pos h]; rw [put2 t i j _ _ (fun x => x + s) hi hj rfl]; simp [h]
      · simp only [if_neg h]; simp [h])

theorem MatT.mulE_some {x y : Option K} {u v : K} (hx : x = some u) (hy : y = some v) : mulE x y = some (u * v) := by
  rw [hx, hy]; rfl

theorem MatT.ex_sum (A : Matrix (Fin n) (Fin p) K) (B : Matrix (Fin p) (Fin m) K) (i : Fin n) (j : Fin m) :
    ∑ k ∈ Finset.range p, ex A i k * ex B k j = (A * B) i j := by
  rw [Finset.sum_range, Matrix.mul_apply]
  simp

theorem MatT.mult_yields {a : MatT K n p} {b : MatT K p m} {A : Matrix (Fin n) (Fin p) K} {B : Matrix (Fin p) (Fin m) K}
    (ha : a.Is A) (hb : b.Is B) (hp : 0 < p) (u : MatT K n m) :
    Yields (loop2 n m (fun i j r => sumInto p (fun k => mulE (a.e i k) (b.e k j)) (i * m + j) r) u) (A * B) := by
  obtain ⟨r, hr, h1⟩ := fill2 u (fun i j => ∑ k ∈ Finset.range p, ex A i k * ex B k j)
    (fun i j r => sumInto p (fun k => mulE (a.e i k) (b.e k j)) (i * m + j) r) (fun i hi j hj s _ => by
      rw [sumInto_eq _ (fun k => ex A i k * ex B k j) hp (fun k hk => mulE_some (ha.e hi hk) (hb.e hk hj)) (idx_lt hi hj)]
      rfl)
  exact ⟨r, hr, Is.of _ h1 (fun i j => ex_sum A B i j)⟩

theorem MatT.mulAssign_yields {a b : MatT K n n} {A B : Matrix (Fin n) (Fin n) K} (ha : a.Is A) (hb : b.Is B) (hn : 0 < n) :
    Yields (a.mulAssign b) (A * B) := by
  obtain ⟨t, ht, h⟩ := mult_yields ha hb hn unset
  obtain ⟨r, hr, h1⟩ := fillFlat a (fun k => ex (A * B) (k / n) (k % n)) (fun i a => (t.at' i).bind (a.put i)) (fun k hk s _ => by
    rw [h.at' hk]; rfl)
  refine ⟨r, ?_, Is.flat _ h1 (fun i j => ex_val _ _ _)⟩
  unfold mulAssign mulSq
  rw [ht]; exact hr

/-- Products of matrices, of matrices and vectors, sums and differences with products. -/
theorem C83_product {a : MatT K n p} {b : MatT K p m} {A : Matrix (Fin n) (Fin p) K} {B : Matrix (Fin p) (Fin m) K} (ha : a.Is A) (hb : b.Is B)
    (hp : 0 < p) {r : MatT K n m} {R : Matrix (Fin n) (Fin m) K} (hr : r.Is R) (u : MatT K n m) :
    Yields (a.mul b) (A * B) ∧ Yields (a.mult b u) (A * B) ∧ Yields (a.multAdd b r) (R + A * B) ∧ Yields (a.multSub b r) (R - A * B) := by
  refine ⟨?_, mult_yields ha hb hp u, ?_, ?_⟩
  · unfold mul
    by_cases h1 : n > 1 ∧ m > 1
    · rw [if_pos h1]; exact mult_yields ha hb hp unset
    rw [if_neg h1]
    by_cases h2 : m = 1
    · subst h2
      rw [if_pos rfl]
      obtain ⟨r, hr, h1, -⟩ := fillPos n (unset : MatT K n 1) id (fun i => ∑ k ∈ Finset.range p, ex A i k * ex B k 0)
        (fun i r => sumInto p (fun k => mulE (a.e i k) (b.at' k)) i r) (fun k hk => by simpa using hk) (fun _ _ _ _ h => h)
        (fun i hi s _ _ => by
          exact sumInto_eq _ _ hp (fun k hk => mulE_some (ha.e hi hk) (by
            have := hb.e hk Nat.one_pos; unfold MatT.e at this; simpa using this)) (by simpa using hi) s)
      refine ⟨r, hr, fun i j => ?_⟩
      have hj : j = 0 := Subsingleton.elim _ _
      subst hj
      have := h1 i i.2
      have e := ex_sum A B i 0
      simp only [Fin.val_zero] at e
      rw [e] at this
      unfold MatT.e; simpa using this
    rw [if_neg h2]
    by_cases h3 : n = 1
    · subst h3
      rw [if_pos rfl]
      obtain ⟨r, hr, h1, -⟩ := fillPos m (unset : MatT K 1 m) id (fun j => ∑ k ∈ Finset.range p, ex A 0 k * ex B k j)
        (fun j r => sumInto p (fun k => mulE (a.at' k) (b.e k j)) j r) (fun k hk => by simpa using hk) (fun _ _ _ _ h => h)
        (fun j hj s _ _ => by
          exact sumInto_eq _ _ hp (fun k hk => mulE_some (by
            have := ha.e Nat.one_pos hk; unfold MatT.e at this; simpa using this) (hb.e hk hj)) (by simpa using hj) s)
      refine ⟨r, hr, fun i j => ?_⟩
      have hi : i = 0 := Subsingleton.elim _ _
      subst hi
      have := h1 j j.2
      have e := ex_sum A B 0 j
      simp only [Fin.val_zero] at e
      rw [e] at this
      unfold MatT.e; simpa using this
    · rw [if_neg h3]
      refine ⟨unset, rfl, fun i j => ?_⟩
      exact absurd i.2 (by have := j.2; omega)
  · obtain ⟨t, ht, h1⟩ := fill2 r (fun i j => ex R i j + ∑ k ∈ Finset.range p, ex A i k * ex B k j)
      (fun i j => runLoop p fun k r => (mulE (a.e i k) (b.e k j)).bind fun y => r.upd (i * m + j) fun x => some (x + y)) (fun i hi j hj s hs => by
        obtain ⟨w, hw, e⟩ := addInto_eq (fun k => mulE (a.e i k) (b.e k j)) (fun k => ex A i k * ex B k j)
          (fun k hk => mulE_some (ha.e hi hk) (hb.e hk hj)) (idx_lt hi hj) s (hs.trans (hr.e hi hj)) (fun x y => x + y)
        rw [hw, e, foldl_add]; rfl)
    exact ⟨t, ht, Is.of _ h1 (fun i j => by rw [ex_sum, ex_val]; rfl)⟩
  · obtain ⟨t, ht, h1⟩ := fill2 r (fun i j => ex R i j - ∑ k ∈ Finset.range p, ex A i k * ex B k j)
      (fun i j => runLoop p fun k r => (mulE (a.e i k) (b.e k j)).bind fun y => r.upd (i * m + j) fun x => some (x - y)) (fun i hi j hj s hs => by
        obtain ⟨w, hw, e⟩ := addInto_eq (fun k => mulE (a.e i k) (b.e k j)) (fun k => ex A i k * ex B k j)
          (fun k hk => mulE_some (ha.e hi hk) (hb.e hk hj)) (idx_lt hi hj) s (hs.trans (hr.e hi hj)) (fun x y => x - y)
        rw [hw, e, foldl_sub]; rfl)
    exact ⟨t, ht, Is.of _ h1 (fun i j => by rw [ex_sum, ex_val]; rfl)⟩

/-- Products of square matrices, also `a *= a`; row vector times vector, traces and sums of elements. -/
theorem C83_square {a b : MatT K n n} {A B : Matrix (Fin n) (Fin n) K} (ha : a.Is A) (hb : b.Is B) (hn : 0 < n) {r : MatT K 1 n} {v : MatT K n 1}
    {R : Matrix (Fin 1) (Fin n) K} {V : Matrix (Fin n) (Fin 1) K} (hr : r.Is R) (hv : v.Is V) {x : MatT K n m} {y : MatT K m n}
    {X : Matrix (Fin n) (Fin m) K} {Y : Matrix (Fin m) (Fin n) K} (hx : x.Is X) (hy : y.Is Y) :
    Yields (a.mulSq b) (A * B) ∧ Yields (a.mulAssign b) (A * B) ∧ Yields (a.mulAssign a) (A * A) ∧ r.rowCol v = some ((R * V) 0 0) ∧
      a.trace = some A.trace ∧ x.mulTrace y = some (X * Y).trace ∧ x.sum = some (∑ i, ∑ j, X i j) := by
  refine ⟨mult_yields ha hb hn unset, mulAssign_yields ha hb hn, mulAssign_yields ha ha hn, ?_, ?_, ?_, ?_⟩
  · have h : ∀ k < n, mulE (r.at' k) (v.at' k) = some (ex R 0 k * ex V k 0) := fun k hk => by
      have e1 := hr.e Nat.one_pos hk
      have e2 := hv.e hk Nat.one_pos
      unfold MatT.e at e1 e2
      exact mulE_some (by simpa using e1) (by simpa using e2)
    unfold rowCol
    rw [h 0 hn, Option.bind_some]
    have := runLoop_sum (n - 1) (fun i => mulE (r.at' (i + 1)) (v.at' (i + 1))) (fun i => ex R 0 (i + 1) * ex V (i + 1) 0)
      (fun i hi => h (i + 1) (by omega)) (ex R 0 0 * ex V 0 0)
    rw [this]
    have e := ex_sum R V 0 0
    obtain ⟨q, rfl⟩ : ∃ q, n = q + 1 := ⟨n - 1, by omega⟩
    rw [← e, Finset.sum_range_succ', Nat.add_sub_cancel, add_comm]
    rfl
  · unfold MatT.trace
    rw [runLoop_sum n _ (fun i => ex A i i) (fun i hi => ha.e hi hi), zero_add, Finset.sum_range]
    simp [Matrix.trace]
  · unfold mulTrace
    rw [loop2_flat]
    have := runLoop_sum (n * m) (fun k => mulE (x.e (k / m) (k % m)) (y.e (k % m) (k / m))) (fun k => ex X (k / m) (k % m) * ex Y (k % m) (k / m))
      (fun k hk => by obtain ⟨h1, h2, -⟩ := idx_split hk; exact mulE_some (hx.e h1 h2) (hy.e h2 h1)) 0
    rw [this, zero_add, MatT.sum_flat n m fun i j => ex X i j * ex Y j i]
    simp only [ex_val]
    rw [Matrix.trace]
    simp only [Matrix.diag_apply, Matrix.mul_apply]
  · unfold MatT.sum
    rw [runLoop_sum (n * m) _ (fun k => ex X (k / m) (k % m)) (fun k hk => hx.at' hk), zero_add, MatT.sum_flat n m fun i j => ex X i j]
    simp only [ex_val]

theorem MatT.setE_some (a : MatT K n m) {i j : ℕ} (hi : i < n) (hj : j < m) (v : K) :
    ∃ r, a.setE i j v = some r ∧ r.e i j = some v ∧ ∀ x y, y < m → (x ≠ i ∨ y ≠ j) → r.e x y = a.e x y := by
  obtain ⟨r, hr, h1, h2⟩ := put_some a (idx_lt hi hj) v
  exact ⟨r, hr, h1, fun x y hy h => h2 _ (fun e => by have := idx_inj hy hj e; omega)⟩

/-- `mult_by_2x2_left` and `mult_by_2x2_right` multiply with the unit matrix in which the block is inserted. -/
theorem C83_block {a : MatT K n m} {A : Matrix (Fin n) (Fin m) K} (ha : a.Is A) (M : Fin 2 → Fin 2 → K) :
    (∀ p q, p < n → q < n → p ≠ q → Yields (a.mult2Left p q M) (embed2 n p q M * A)) ∧
      ∀ p q, p < m → q < m → p ≠ q → Yields (a.mult2Right p q M) (A * embed2 m p q M) := by
  refine ⟨fun p q hp hq hpq => ?_, fun p q hp hq hpq => ?_⟩
  · have hpq' : (⟨p, hp⟩ : Fin n) ≠ ⟨q, hq⟩ := fun e => hpq (by simpa using e)
    have hE : ∀ (r : Fin n) (c : Fin m), (embed2 n p q M * A) r c =
        if r.val = p then M 0 0 * ex A p c + M 0 1 * ex A q c else if r.val = q then M 1 0 * ex A p c + M 1 1 * ex A q c else A r c := fun r c => by
      rw [Matrix.mul_apply, show ex A p c = A ⟨p, hp⟩ c from ex_val A ⟨p, hp⟩ c, show ex A q c = A ⟨q, hq⟩ c from ex_val A ⟨q, hq⟩ c]
      unfold embed2
      by_cases h1 : r.val = p
      · simp only [if_pos h1]
        rw [Fintype.sum_eq_add (⟨p, hp⟩ : Fin n) ⟨q, hq⟩ hpq' (fun x hx => by
          rw [if_neg (fun e => hx.1 (Fin.ext e)), if_neg (fun e => hx.2 (Fin.ext e)), zero_mul])]
        simp [hpq.symm]
      · by_cases h2 : r.val = q
        · simp only [if_neg h1, if_pos h2]
          rw [Fintype.sum_eq_add (⟨p, hp⟩ : Fin n) ⟨q, hq⟩ hpq' (fun x hx => by
            rw [if_neg (fun e => hx.1 (Fin.ext e)), if_neg (fun e => hx.2 (Fin.ext e)), zero_mul])]
          simp [hpq.symm]
        · simp [h1, h2]
    obtain ⟨t, ht, h⟩ := runLoop_inv (n := m) (s0 := a)
      (f := fun i (a : MatT K n m) => (a.e p i).bind fun x => (a.e q i).bind fun y =>
        (a.setE p i (M 0 0 * x + M 0 1 * y)).bind fun a => a.setE q i (M 1 0 * x + M 1 1 * y))
      (fun i s => ∀ (r : Fin n) (c : Fin m), s.e r c = some (if c.val < i then (embed2 n p q M * A) r c else A r c))
      (fun r c => by simpa using ha r c) (fun i hi s hs => by
        have e1 := hs ⟨p, hp⟩ ⟨i, hi⟩
        have e2 := hs ⟨q, hq⟩ ⟨i, hi⟩
        simp only [lt_irrefl, if_false] at e1 e2
        obtain ⟨u, hu, u1, u2⟩ := setE_some s hp hi (M 0 0 * A ⟨p, hp⟩ ⟨i, hi⟩ + M 0 1 * A ⟨q, hq⟩ ⟨i, hi⟩)
        obtain ⟨w, hw, w1, w2⟩ := setE_some u hq hi (M 1 0 * A ⟨p, hp⟩ ⟨i, hi⟩ + M 1 1 * A ⟨q, hq⟩ ⟨i, hi⟩)
        refine ⟨w, by rw [e1, e2]; simp only [Option.bind_some]; rw [hu]; exact hw, fun r c => ?_⟩
        by_cases hc : c.val = i
        · have hci : c = ⟨i, hi⟩ := Fin.ext hc
          rw [if_pos (by omega), hE, show ex A p c = A ⟨p, hp⟩ c from ex_val A ⟨p, hp⟩ c, show ex A q c = A ⟨q, hq⟩ c from ex_val A ⟨q, hq⟩ c]
          by_cases h1 : r.val = p
          · rw [if_pos h1, w2 _ _ c.2 (Or.inl (by omega)), h1, hc, u1, hci]
          · by_cases h2 : r.val = q
            · rw [if_neg h1, if_pos h2, h2, hc, w1, hci]
            · rw [if_neg h1, if_neg h2, w2 _ _ c.2 (Or.inl h2), u2 _ _ c.2 (Or.inl h1), hs r c, if_neg (by omega)]
        · rw [w2 _ _ c.2 (Or.inr hc), u2 _ _ c.2 (Or.inr hc), hs r c]
          by_cases h : c.val < i
          · rw [if_pos h, if_pos (by omega)]
          · rw [if_neg h, if_neg (by omega)])
    exact ⟨t, ht, fun r c => by rw [h r c, if_pos c.2]⟩
  · have hpq' : (⟨p, hp⟩ : Fin m) ≠ ⟨q, hq⟩ := fun e => hpq (by simpa using e)
    have hE : ∀ (r : Fin n) (c : Fin m), (A * embed2 m p q M) r c =
        if c.val = p then A r ⟨p, hp⟩ * M 0 0 + A r ⟨q, hq⟩ * M 1 0 else
          if c.val = q then A r ⟨p, hp⟩ * M 0 1 + A r ⟨q, hq⟩ * M 1 1 else A r c := fun r c => by
      rw [Matrix.mul_apply]
      unfold embed2
      by_cases h1 : c.val = p
      · simp only [if_pos h1]
        rw [Fintype.sum_eq_add (⟨p, hp⟩ : Fin m) ⟨q, hq⟩ hpq' (fun x hx => by
          rw [if_neg (fun e => hx.1 (Fin.ext e)), if_neg (fun e => hx.2 (Fin.ext e)), if_neg (fun e => hx.1 (Fin.ext (by rw [e]; exact h1))), mul_zero])]
        simp [hpq.symm]
      · by_cases h2 : c.val = q
        · simp only [if_neg h1, if_pos h2]
          rw [Fintype.sum_eq_add (⟨p, hp⟩ : Fin m) ⟨q, hq⟩ hpq' (fun x hx => by
            rw [if_neg (fun e => hx.1 (Fin.ext e)), if_neg (fun e => hx.2 (Fin.ext e)), if_neg (fun e => hx.2 (Fin.ext (by rw [e]; exact h2))), mul_zero])]
          simp [hpq.symm]
        · simp only [if_neg h1, if_neg h2]
          rw [Fintype.sum_eq_single c (fun x hx => by
            by_cases e1 : x.val = p <;> by_cases e2 : x.val = q <;> simp [e1, e2, hx])]
          simp [h1, h2]
    obtain ⟨t, ht, h⟩ := runLoop_inv (n := n) (s0 := a)
      (f := fun i (a : MatT K n m) => (a.e i p).bind fun x => (a.e i q).bind fun y =>
        (a.setE i p (x * M 0 0 + y * M 1 0)).bind fun a => a.setE i q (x * M 0 1 + y * M 1 1))
      (fun i s => ∀ (r : Fin n) (c : Fin m), s.e r c = some (if r.val < i then (A * embed2 m p q M) r c else A r c))
      (fun r c => by simpa using ha r c) (fun i hi s hs => by
        have e1 := hs ⟨i, hi⟩ ⟨p, hp⟩
        have e2 := hs ⟨i, hi⟩ ⟨q, hq⟩
        simp only [lt_irrefl, if_false] at e1 e2
        obtain ⟨u, hu, u1, u2⟩ := setE_some s hi hp (A ⟨i, hi⟩ ⟨p, hp⟩ * M 0 0 + A ⟨i, hi⟩ ⟨q, hq⟩ * M 1 0)
        obtain ⟨w, hw, w1, w2⟩ := setE_some u hi hq (A ⟨i, hi⟩ ⟨p, hp⟩ * M 0 1 + A ⟨i, hi⟩ ⟨q, hq⟩ * M 1 1)
        refine ⟨w, by rw [e1, e2]; simp only [Option.bind_some]; rw [hu]; exact hw, fun r c => ?_⟩
        by_cases hc : r.val = i
        · have hci : r = ⟨i, hi⟩ := Fin.ext hc
          rw [if_pos (by omega), hE]
          by_cases h1 : c.val = p
          · rw [if_pos h1, w2 _ _ c.2 (Or.inr (by omega)), h1, hc, u1, hci]
          · by_cases h2 : c.val = q
            · rw [if_neg h1, if_pos h2, h2, hc, w1, hci]
            · rw [if_neg h1, if_neg h2, w2 _ _ c.2 (Or.inr h2), u2 _ _ c.2 (Or.inr h1), hs r c, if_neg (by omega)]
        · rw [w2 _ _ c.2 (Or.inl hc), u2 _ _ c.2 (Or.inl hc), hs r c]
          by_cases h : r.val < i
          · rw [if_pos h, if_pos (by omega)]
          · rw [if_neg h, if_neg (by omega)])
    exact ⟨t, ht, fun r c => by rw [h r c, if_pos r.2]⟩

theorem MatT.powLoop_yields (hn : 0 < n) : ∀ (f p : ℕ) (p2 res : MatT K n n) (P R : Matrix (Fin n) (Fin n) K), p < 2 ^ f → p2.Is P → res.Is R →
    Yields (powLoop (f + 1) p p2 res) (R * P ^ (2 * p)) := by
  intro f
  induction f with
  | zero =>
    intro p p2 res P R hp _ hr
    have : p = 0 := by simpa using hp
    subst this
    exact ⟨res, by rw [powLoop]; rfl, by simpa using hr⟩
  | succ f ih =>
    intro p p2 res P R hp hP hR
    rw [powLoop]
    by_cases h0 : p = 0
    · subst h0
      rw [if_pos rfl]
      exact ⟨res, rfl, by simpa using hR⟩
    · rw [if_neg h0]
      obtain ⟨q2, hq, hQ⟩ := mulAssign_yields hP hP hn
      rw [hq, Option.bind_some]
      have hp' : p / 2 < 2 ^ f := by rw [pow_succ] at hp; omega
      by_cases h1 : p % 2 ≠ 0
      · rw [if_pos h1]
        obtain ⟨r, hr, hr'⟩ := mulAssign_yields hR hQ hn
        rw [hr, Option.bind_some]
        have := ih (p / 2) q2 r _ _ hp' hQ hr'
        rw [show R * P ^ (2 * p) = R * (P * P) * (P * P) ^ (2 * (p / 2)) from by
          rw [← pow_two, ← pow_mul, mul_assoc, ← pow_add]; congr 2; omega]
        exact this
      · rw [if_neg h1, Option.bind_some]
        have := ih (p / 2) q2 res _ _ hp' hQ hR
        rw [show R * P ^ (2 * p) = R * (P * P) ^ (2 * (p / 2)) from by
          rw [← pow_two, ← pow_mul]; congr 2; omega]
        exact this

/-- `pow` for all powers: they are taken modulo 2³². -/
theorem C83_pow_partial {a : MatT K n n} {A : Matrix (Fin n) (Fin n) K} (ha : a.Is A) (hn : 0 < n) (p : ℤ) :
    Yields (a.pow p) (A ^ (p % 2 ^ 32).toNat) ∧ (0 ≤ p → p < 2 ^ 32 → Yields (a.pow p) (A ^ p.toNat)) := by
  have key : Yields (a.pow p) (A ^ (p % 2 ^ 32).toNat) := by
    unfold MatT.pow
    have hb : (p % 2 ^ 32).toNat < 2 ^ 32 := by omega
    generalize (p % 2 ^ 32).toNat = q at hb ⊢
    have hq : q / 2 < 2 ^ 32 := by omega
    simp only
    by_cases h : q % 2 ≠ 0
    · rw [if_pos h, Option.bind_some]
      rw [show A ^ q = A * A ^ (2 * (q / 2)) from by rw [← pow_succ']; congr 1; omega]
      exact powLoop_yields hn 32 _ _ _ _ _ hq ha ha
    · rw [if_neg h]
      obtain ⟨u, hu, hU⟩ := (C83_scalar (m := 1) ha 1 unset unset).1
      rw [hu, Option.bind_some]
      rw [show A ^ q = (1 : K) • (1 : Matrix (Fin n) (Fin n) K) * A ^ (2 * (q / 2)) from by rw [one_smul, one_mul]; congr 1; omega]
      exact powLoop_yields hn 32 _ _ _ _ _ hq ha hU
  refine ⟨key, fun h0 h1 => ?_⟩
  rw [Int.emod_eq_of_lt h0 h1] at key
  exact key

end

/-- The 1×1 matrix 2: its power 2³² is 1, and its power -1 is a large number. -/
theorem C83_pow_wrong : ∃ a : MatT ℚ 1 1, a.Is !![2] ∧ Yields (a.pow (2 ^ 32)) 1 ∧ (!![2] : Matrix (Fin 1) (Fin 1) ℚ) ^ (2 ^ 32) ≠ 1 ∧
    ∃ B : Matrix (Fin 1) (Fin 1) ℚ, Yields (a.pow (-1)) B ∧ 1 < B 0 0 * 2 := by
  have hI : (⟨fun _ => some 2⟩ : MatT ℚ 1 1).Is !![2] := fun i j => by
    unfold MatT.e MatT.at'
    rw [if_pos (idx_lt i.2 j.2)]
    simp
  have hpow : ∀ k, ((!![2] : Matrix (Fin 1) (Fin 1) ℚ) ^ k) 0 0 = 2 ^ k := fun k => by
    induction k with
    | zero => rfl
    | succ k ih => rw [pow_succ, Matrix.mul_apply, Fin.sum_univ_one, ih, pow_succ]; rfl
  refine ⟨⟨fun _ => some 2⟩, hI, ?_, ?_, !![2] ^ ((-1 : ℤ) % 2 ^ 32).toNat, (C83_pow_partial hI Nat.one_pos _).1, ?_⟩
  · have := (C83_pow_partial hI Nat.one_pos (2 ^ 32)).1
    rw [Int.emod_self] at this
    exact this
  · intro h
    have := congrFun (congrFun h 0) 0
    rw [hpow, Matrix.one_apply_eq] at this
    exact absurd this (ne_of_gt (one_lt_pow₀ one_lt_two (by norm_num)))
  · rw [hpow, ← pow_succ]
    exact one_lt_pow₀ one_lt_two (by omega)

section
variable [Field K] [StarRing K]

/-- Adjoints, scalar products and outer products. -/
theorem C83_adjoint {a : MatT K n p} {b : MatT K p m} {A : Matrix (Fin n) (Fin p) K} {B : Matrix (Fin p) (Fin m) K} (ha : a.Is A) (hb : b.Is B)
    (hp : 0 < p) (u : MatT K m n) {v w : MatT K n 1} {y : MatT K p 1} {V W : Matrix (Fin n) (Fin 1) K} {Y : Matrix (Fin p) (Fin 1) K}
    (hv : v.Is V) (hw : w.Is W) (hy : y.Is Y) :
    Yields a.conj (A.map star) ∧ Yields a.dagger A.conjTranspose ∧ Yields (a.multAA b u) (A * B).conjTranspose ∧
      v.dot w = some ((V.conjTranspose * W) 0 0) ∧ Yields (v.outer y) (V * Y.conjTranspose) := by
  refine ⟨mapC_yields ha _ star (fun _ => rfl), ?_, ?_, ?_, ?_⟩
  · obtain ⟨r, hr, h1⟩ := fill2T (unset : MatT K p n) (fun i j => star (ex A i j)) (fun i j r => (a.e i j).bind fun x => r.setE j i (star x))
      (fun i hi j hj s => by rw [ha.e hi hj]; rfl)
    exact ⟨r, hr, fun j i => by rw [h1 i i.2 j j.2, ex_val]; rfl⟩
  · obtain ⟨r, hr, h1⟩ := fill2T u (fun i j => ∑ k ∈ Finset.range p, star (ex A i k * ex B k j))
      (fun i j r => sumInto p (fun k => (mulE (a.e i k) (b.e k j)).map star) (j * n + i) r) (fun i hi j hj s => by
        rw [sumInto_eq _ (fun k => star (ex A i k * ex B k j)) hp (fun k hk => by
          rw [mulE_some (ha.e hi hk) (hb.e hk hj)]; rfl) (idx_lt hj hi)]
        rfl)
    exact ⟨r, hr, fun j i => by rw [h1 i i.2 j j.2, ← star_sum, ex_sum]; rfl⟩
  · unfold dot
    have h := runLoop_sum n (fun i => (v.at' i).bind fun x => (w.at' i).map fun y => star x * y) (fun i => star (ex V i 0) * ex W i 0)
      (fun i hi => by
        have e1 := hv.e hi Nat.one_pos
        have e2 := hw.e hi Nat.one_pos
        unfold MatT.e at e1 e2
        simp only [mul_one, add_zero] at e1 e2
        rw [e1, e2]; rfl) 0
    have e : (fun i r => (v.at' i).bind fun x => (w.at' i).map fun y => r + star x * y) =
        fun i t => ((v.at' i).bind fun x => (w.at' i).map fun y => star x * y).map fun x => t + x := by
      funext i t
      cases v.at' i <;> cases w.at' i <;> rfl
    rw [e, h, zero_add, Finset.sum_range, Matrix.mul_apply]
    congr 1
    apply Finset.sum_congr rfl
    intro i _
    rw [show ex V i 0 = V i 0 from ex_val V i 0, show ex W i 0 = W i 0 from ex_val W i 0]
    rfl
  · obtain ⟨r, hr, h1⟩ := fill2 (unset : MatT K n p) (fun i j => ex V i 0 * star (ex Y j 0))
      (fun i j r => (v.at' i).bind fun x => (y.at' j).bind fun y => r.setE i j (x * star y)) (fun i hi j hj s _ => by
        have e1 := hv.e hi Nat.one_pos
        have e2 := hy.e hj Nat.one_pos
        unfold MatT.e at e1 e2
        simp only [mul_one, add_zero] at e1 e2
        rw [e1, e2]; rfl)
    refine ⟨r, hr, Is.of _ h1 (fun i j => ?_)⟩
    rw [Matrix.mul_apply, Fin.sum_univ_one, show ex V i 0 = V i 0 from ex_val V i 0, show ex Y j 0 = Y j 0 from ex_val Y j 0]
    rfl

end

/-- `squarenorm` is the trace of `A† A`, `norm` its root. -/
theorem C83_norm {F : Type} [RCLike F] {a : MatT F n m} {A : Matrix (Fin n) (Fin m) F} (ha : a.Is A) :
    ∃ s : ℝ, a.squarenorm = some s ∧ (s : F) = (A.conjTranspose * A).trace ∧ s = ∑ i, ∑ j, ‖A i j‖ ^ 2 ∧ a.norm = some (Real.sqrt s) := by
  have h : a.squarenorm = some (∑ i, ∑ j, ‖A i j‖ ^ 2) := by
    unfold squarenorm
    have := runLoop_sum (n * m) (fun k => (a.at' k).map fun x => RCLike.normSq x) (fun k => RCLike.normSq (ex A (k / m) (k % m)))
      (fun k hk => by rw [ha.at' hk]; rfl) 0
    have e : (fun i t => (a.at' i).map fun x => t + RCLike.normSq x) = fun i (t : ℝ) => ((a.at' i).map fun x => RCLike.normSq x).map fun x => t + x := by
      funext i t
      cases a.at' i <;> rfl
    rw [e, this, zero_add, MatT.sum_flat n m fun i j => RCLike.normSq (ex A i j)]
    simp only [ex_val, RCLike.normSq_eq_def']
  refine ⟨_, h, ?_, rfl, by unfold MatT.norm; rw [h]; rfl⟩
  rw [Matrix.trace]
  simp only [RCLike.ofReal_sum, Matrix.diag_apply, Matrix.mul_apply, Matrix.conjTranspose_apply]
  rw [Finset.sum_comm]
  apply Finset.sum_congr rfl; intro j _
  apply Finset.sum_congr rfl; intro i _
  rw [RCLike.ofReal_pow]
  exact (RCLike.conj_mul _).symm

section
variable [Field K]

theorem MatT.setRow_some (a : MatT K n m) {v : MatT K 1 m} {V : Matrix (Fin 1) (Fin m) K} (hv : v.Is V) {r : ℕ} (hr : r < n) :
    ∃ t, a.setRow r v = some t ∧ (∀ j : Fin m, t.e r j = some (V 0 j)) ∧ ∀ i, i ≠ r → ∀ j < m, t.e i j = a.e i j := by
  obtain ⟨t, ht, h1, h2⟩ := fillPos m a (fun i => r * m + i) (fun i => ex V 0 i) (fun i a => (v.at' i).bind (a.setE r i))
    (fun i hi => idx_lt hr hi) (fun k hk l hl e => (idx_inj hk hl e).2) (fun i hi s _ _ => by
      have e1 := hv.e Nat.one_pos hi
      unfold MatT.e at e1
      simp only [zero_mul, zero_add] at e1
      rw [e1]; rfl)
  refine ⟨t, ht, fun j => ?_, fun i hi j hj => h2 _ (fun x hx e => hi (idx_inj hx hj e).1.symm)⟩
  have := h1 j j.2
  rw [show ex V 0 j = V 0 j from ex_val V 0 j] at this
  exact this

theorem MatT.setColumn_some (a : MatT K n m) {v : MatT K n 1} {V : Matrix (Fin n) (Fin 1) K} (hv : v.Is V) {c : ℕ} (hc : c < m) :
    ∃ t, a.setColumn c v = some t ∧ (∀ i : Fin n, t.e i c = some (V i 0)) ∧ ∀ i, ∀ j < m, j ≠ c → t.e i j = a.e i j := by
  obtain ⟨t, ht, h1, h2⟩ := fillPos n a (fun i => i * m + c) (fun i => ex V i 0) (fun i a => (v.at' i).bind (a.setE i c))
    (fun i hi => idx_lt hi hc) (fun k hk l hl e => (idx_inj hc hc e).1) (fun i hi s _ _ => by
      have e1 := hv.e hi Nat.one_pos
      unfold MatT.e at e1
      simp only [mul_one, add_zero] at e1
      rw [e1]; rfl)
  refine ⟨t, ht, fun i => ?_, fun i j hj hjc => h2 _ (fun x hx e => hjc (idx_inj hc hj e).2.symm)⟩
  have := h1 i i.2
  rw [show ex V i 0 = V i 0 from ex_val V i 0] at this
  exact this

theorem MatT.row_yields {a : MatT K n m} {A : Matrix (Fin n) (Fin m) K} (ha : a.Is A) (r : Fin n) : Yields (a.row r) (fun _ j => A r j) := by
  obtain ⟨t, ht, h1, -⟩ := fillPos m (unset : MatT K 1 m) id (fun i => ex A r i) (fun i v => (a.e r i).bind (v.put i))
    (fun i hi => by simpa using hi) (fun _ _ _ _ h => h) (fun i hi s _ _ => by rw [ha.e r.2 hi]; rfl)
  refine ⟨t, ht, fun i j => ?_⟩
  have hi : i = 0 := Subsingleton.elim _ _
  subst hi
  have := h1 j j.2
  unfold MatT.e
  simpa using this

theorem MatT.column_yields {a : MatT K n m} {A : Matrix (Fin n) (Fin m) K} (ha : a.Is A) (c : Fin m) : Yields (a.column c) (fun i _ => A i c) := by
  obtain ⟨t, ht, h1, -⟩ := fillPos n (unset : MatT K n 1) id (fun i => ex A i c) (fun i v => (a.e i c).bind (v.put i))
    (fun i hi => by simpa using hi) (fun _ _ _ _ h => h) (fun i hi s _ _ => by rw [ha.e hi c.2]; rfl)
  refine ⟨t, ht, fun i j => ?_⟩
  have hj : j = 0 := Subsingleton.elim _ _
  subst hj
  have := h1 i i.2
  unfold MatT.e
  simpa using this

/-- Rows, columns, lists, transposes and comparison. -/
theorem C83_elements {a b : MatT K n m} {A B : Matrix (Fin n) (Fin m) K} (ha : a.Is A) (hb : b.Is B) :
    (∀ r : Fin n, Yields (a.row r) (fun _ j => A r j)) ∧ (∀ c : Fin m, Yields (a.column c) (fun i _ => A i c)) ∧
    (∀ (r : Fin n) (v : MatT K 1 m) (V : Matrix (Fin 1) (Fin m) K), v.Is V → Yields (a.setRow r v) (A.updateRow r (V 0))) ∧
    (∀ (c : Fin m) (v : MatT K n 1) (V : Matrix (Fin n) (Fin 1) K), v.Is V → Yields (a.setColumn c v) (A.updateCol c fun i => V i 0)) ∧
    Yields a.transpose A.transpose ∧
    (∀ l : List K, l.length = n * m → Yields (ofList l) (fun (i : Fin n) (j : Fin m) => l.getD (i * m + j) 0)) ∧
    (∀ l : List K, l.length ≠ n * m → (ofList l : Option (MatT K n m)) = none) ∧
    (∃ t, a.eqM b = some t ∧ (t = true ↔ A = B)) := by
  refine ⟨row_yields ha, column_yields ha, ?_, ?_, ?_, ?_, ?_, ?_⟩
  · intro r v V hv
    obtain ⟨t, ht, h1, h2⟩ := setRow_some a hv r.2
    refine ⟨t, ht, fun i j => ?_⟩
    by_cases h : i = r
    · subst h; rw [h1 j]; simp
    · rw [h2 i (fun e => h (Fin.ext e)) j j.2, ha i j, Matrix.updateRow_ne h]
  · intro c v V hv
    obtain ⟨t, ht, h1, h2⟩ := setColumn_some a hv c.2
    refine ⟨t, ht, fun i j => ?_⟩
    by_cases h : j = c
    · subst h; rw [h1 i]; simp
    · rw [h2 i j j.2 (fun e => h (Fin.ext e)), ha i j, Matrix.updateCol_ne h]
  · obtain ⟨r, hr, h1⟩ := fill2T (unset : MatT K m n) (fun i j => ex A i j) (fun i j r => (a.e i j).bind (r.setE j i))
      (fun i hi j hj s => by rw [ha.e hi hj]; rfl)
    exact ⟨r, hr, fun j i => by rw [h1 i i.2 j j.2, ex_val]; rfl⟩
  · intro l hl
    obtain ⟨r, hr, h1⟩ := fillFlat (unset : MatT K n m) (fun k => l.getD k 0) (fun i r => (l[i]?).bind (r.put i)) (fun k hk s _ => by
      rw [List.getD_eq_getElem?_getD, List.getElem?_eq_getElem (by omega)]; rfl)
    refine ⟨r, by unfold ofList; rw [if_pos hl]; exact hr, fun i j => ?_⟩
    exact h1 _ (idx_lt i.2 j.2)
  · intro l hl
    unfold ofList; rw [if_neg hl]
  · classical
    obtain ⟨t, ht, h⟩ := runLoop_inv (n := n * m) (s0 := true)
      (f := fun k t => if t then (a.e (k / m) (k % m)).bind fun x => (b.e (k / m) (k % m)).map fun y => decide (x = y) else some false)
      (fun k t => t = true ↔ ∀ x < k, ex A (x / m) (x % m) = ex B (x / m) (x % m)) (by simp) (fun k hk t ht => by
        obtain ⟨h1, h2, -⟩ := idx_split hk
        by_cases h : t = true
        · subst h
          refine ⟨decide (ex A (k / m) (k % m) = ex B (k / m) (k % m)), by rw [if_pos rfl, ha.e h1 h2, hb.e h1 h2]; rfl, ?_⟩
          rw [decide_eq_true_iff]
          refine ⟨fun e x hx => ?_, fun e => e k (by omega)⟩
          by_cases hxk : x = k
          · rw [hxk]; exact e
          · exact ht.1 rfl x (by omega)
        · refine ⟨false, by rw [if_neg h], ?_⟩
          refine ⟨fun e => (by cases e), fun e => absurd (ht.2 fun x hx => e x (by omega)) h⟩)
    refine ⟨t, by unfold eqM; rw [loop2_flat]; convert ht using 4, h.trans ⟨fun e => ?_, fun e x hx => by rw [e]⟩⟩
    ext i j
    have hm : 0 < m := j.pos
    have := e _ (idx_lt i.2 j.2)
    have e1 : (i.val * m + j.val) / m = i := by rw [Nat.add_comm, Nat.add_mul_div_right _ _ hm, Nat.div_eq_of_lt j.2]; omega
    have e2 : (i.val * m + j.val) % m = j := by rw [Nat.add_comm, Nat.add_mul_mod_self_right, Nat.mod_eq_of_lt j.2]
    rw [e1, e2, ex_val, ex_val] at this
    exact this

/-- Permutations of rows, columns and elements, the diagonal, transposes of vectors. `f` gives the place an element comes from. -/
theorem C83_permute {a : MatT K n m} {A : Matrix (Fin n) (Fin m) K} (ha : a.Is A) {v : MatT K n 1} {V : Matrix (Fin n) (Fin 1) K} (hv : v.Is V)
    {w : MatT K 1 m} {W : Matrix (Fin 1) (Fin m) K} (hw : w.Is W) {d : MatT K n n} {D : Matrix (Fin n) (Fin n) K} (hd : d.Is D) :
    (∀ (s : Fin m → Fin m) (f : ℕ → ℕ), (∀ i : Fin m, f i = s i) → Yields (a.permuteColumns f) (A.submatrix id s)) ∧
    (∀ (s : Fin n → Fin n) (f : ℕ → ℕ), (∀ i : Fin n, f i = s i) → Yields (a.permuteRows f) (A.submatrix s id)) ∧
    (∀ (s : Fin n → Fin n) (f : ℕ → ℕ), (∀ i : Fin n, f i = s i) → Yields (v.permute f) (V.submatrix s id)) ∧
    Yields (d.setDiagonal v) (fun i j => if i = j then V i 0 else D i j) ∧ v.transposeV.Is V.transpose ∧ w.transposeR.Is W.transpose := by
  refine ⟨?_, ?_, ?_, ?_, ?_, ?_⟩
  · intro s f hf
    obtain ⟨t, ht, h⟩ := runLoop_inv (n := m) (s0 := (unset : MatT K n m))
      (f := fun i r => (a.column (f i)).bind (r.setColumn i)) (fun k t => ∀ (i : Fin n) (j : Fin m), j.val < k → t.e i j = some (A i (s j)))
      (fun _ _ h => by omega) (fun k hk t ht => by
        obtain ⟨c, hc, hc'⟩ := column_yields ha (s ⟨k, hk⟩)
        obtain ⟨u, hu, h1, h2⟩ := setColumn_some t hc' hk
        refine ⟨u, by rw [hf ⟨k, hk⟩, hc]; exact hu, fun i j hj => ?_⟩
        by_cases e : j.val = k
        · have : j = ⟨k, hk⟩ := Fin.ext e
          subst this
          exact h1 i
        · rw [h2 i j j.2 e]; exact ht i j (by omega))
    exact ⟨t, ht, fun i j => h i j j.2⟩
  · intro s f hf
    obtain ⟨t, ht, h⟩ := runLoop_inv (n := n) (s0 := (unset : MatT K n m))
      (f := fun i r => (a.row (f i)).bind (r.setRow i)) (fun k t => ∀ (i : Fin n) (j : Fin m), i.val < k → t.e i j = some (A (s i) j))
      (fun _ _ h => by omega) (fun k hk t ht => by
        obtain ⟨c, hc, hc'⟩ := row_yields ha (s ⟨k, hk⟩)
        obtain ⟨u, hu, h1, h2⟩ := setRow_some t hc' hk
        refine ⟨u, by rw [hf ⟨k, hk⟩, hc]; exact hu, fun i j hj => ?_⟩
        by_cases e : i.val = k
        · have : i = ⟨k, hk⟩ := Fin.ext e
          subst this
          exact h1 j
        · rw [h2 i e j j.2]; exact ht i j (by omega))
    exact ⟨t, ht, fun i j => h i j i.2⟩
  · intro s f hf
    obtain ⟨t, ht, h1, -⟩ := fillPos n (unset : MatT K n 1) id (fun i => ex V (f i) 0) (fun i r => (v.at' (f i)).bind (r.put i))
      (fun i hi => by simpa using hi) (fun _ _ _ _ h => h) (fun i hi r _ _ => by
        have h : f i < n := by rw [hf ⟨i, hi⟩]; exact (s _).2
        have e1 := hv.e h Nat.one_pos
        unfold MatT.e at e1
        simp only [mul_one, add_zero] at e1
        rw [e1]; rfl)
    refine ⟨t, ht, fun i j => ?_⟩
    have hj : j = 0 := Subsingleton.elim _ _
    subst hj
    have := h1 i i.2
    rw [hf i, show ex V (s i) 0 = V (s i) 0 from ex_val V (s i) 0] at this
    unfold MatT.e
    simpa using this
  · obtain ⟨t, ht, h1, h2⟩ := fillPos n d (fun i => i * n + i) (fun i => ex V i 0) (fun i a => (v.at' i).bind (a.setE i i))
      (fun i hi => idx_lt hi hi) (fun k hk l hl e => (idx_inj hk hl e).1) (fun i hi s _ _ => by
        have e1 := hv.e hi Nat.one_pos
        unfold MatT.e at e1
        simp only [mul_one, add_zero] at e1
        rw [e1]; rfl)
    refine ⟨t, ht, fun i j => ?_⟩
    by_cases e : i = j
    · subst e
      have := h1 i i.2
      rw [show ex V i 0 = V i 0 from ex_val V i 0] at this
      simp only [if_true]; exact this
    · simp only [if_neg e]
      rw [← hd i j]
      exact h2 _ (fun x hx e' => e (Fin.ext (by have := idx_inj hx j.2 e'; omega)))
  · intro i j
    have hi : i = 0 := Subsingleton.elim _ _
    subst hi
    have := hv j 0
    unfold MatT.e MatT.at' transposeV at *
    simp only [Fin.val_zero, mul_one, add_zero, one_mul, zero_mul, zero_add] at *
    exact this
  · intro i j
    have hj : j = 0 := Subsingleton.elim _ _
    subst hj
    have := hw 0 i
    unfold MatT.e MatT.at' transposeR at *
    simp only [Fin.val_zero, mul_one, add_zero, one_mul, zero_mul, zero_add] at *
    exact this

end

/-- `a += a.e(0,0)` adds twice the element to the rest of the diagonal, while `a += a.e(0,1)` and `a += a.e(1,1)` add the element as it was; `mult(a, b, a)` is not
the product. -/
theorem C83_alias_wrong :
    (∃ a : MatT ℚ 2 2, a.Is !![1, 0; 0, 5] ∧ Yields (a.addAssignRef 0 0) !![2, 0; 0, 7] ∧ Yields (a.addAssignS 1) !![2, 0; 0, 6]) ∧
    (∃ a : MatT ℚ 2 2, a.Is !![1, 3; 4, 5] ∧ Yields (a.addAssignRef 0 1) !![4, 3; 4, 8] ∧ Yields (a.addAssignRef 1 0) !![5, 3; 4, 9] ∧
      Yields (a.addAssignRef 1 1) !![6, 3; 4, 10]) ∧
    ∃ a b : MatT ℚ 2 2, a.Is !![1, 1; 0, 1] ∧ b.Is !![1, 1; 1, 1] ∧ Yields (a.multInPlace b) !![2, 4; 1, 2] ∧
      Yields (a.mul b) !![2, 2; 1, 1] := by
  have is22 : ∀ (r : MatT ℚ 2 2) (x y z w : ℚ), r.c 0 = some x → r.c 1 = some y → r.c 2 = some z → r.c 3 = some w → r.Is !![x, y; z, w] :=
    fun r x y z w h0 h1 h2 h3 i j => by
      fin_cases i <;> fin_cases j <;> simp [MatT.e, MatT.at', h0, h1, h2, h3]
  refine ⟨⟨⟨fun k => [1, 0, 0, 5][k]?⟩, is22 _ _ _ _ _ rfl rfl rfl rfl, ?_, ?_⟩,
    ⟨⟨fun k => [1, 3, 4, 5][k]?⟩, is22 _ _ _ _ _ rfl rfl rfl rfl, ?_, ?_, ?_⟩,
    ⟨fun k => [1, 1, 0, 1][k]?⟩, ⟨fun k => [1, 1, 1, 1][k]?⟩, is22 _ _ _ _ _ rfl rfl rfl rfl, is22 _ _ _ _ _ rfl rfl rfl rfl, ?_, ?_⟩
  · refine ⟨_, rfl, is22 _ _ _ _ _ ?_ ?_ ?_ ?_⟩ <;> norm_num
  · refine ⟨_, rfl, is22 _ _ _ _ _ ?_ ?_ ?_ ?_⟩ <;> norm_num
  · refine ⟨_, rfl, is22 _ _ _ _ _ ?_ ?_ ?_ ?_⟩ <;> norm_num
  · refine ⟨_, rfl, is22 _ _ _ _ _ ?_ ?_ ?_ ?_⟩ <;> norm_num
  · refine ⟨_, rfl, is22 _ _ _ _ _ ?_ ?_ ?_ ?_⟩ <;> norm_num
  · refine ⟨_, rfl, is22 _ _ _ _ _ ?_ ?_ ?_ ?_⟩ <;> norm_num
  · refine ⟨_, rfl, is22 _ _ _ _ _ ?_ ?_ ?_ ?_⟩ <;> norm_num

/-- The hypotheses hold for matrices of all sizes: every matrix is the value of some object. -/
theorem MatT.exists_is (A : Matrix (Fin n) (Fin m) K) [Zero K] : ∃ a : MatT K n m, a.Is A :=
  ⟨⟨fun k => some (ex A (k / m) (k % m))⟩, Is.flat (ex A) (fun k hk => by unfold MatT.at'; rw [if_pos hk]) (fun i j => ex_val A i j)⟩

example : ∃ a b : MatT ℂ 3 3, a.Is !![1, Complex.I, 0; 0, 2, 0; 5, 0, 1] ∧ b.Is 1 :=
  ⟨_, _, (MatT.exists_is _).choose_spec, (MatT.exists_is _).choose_spec⟩

end Hila
