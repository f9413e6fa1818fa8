import Verif.Model.MatSpec
import Mathlib.Algebra.BigOperators.Fin
import Mathlib.LinearAlgebra.Matrix.Trace
import Mathlib.Data.Matrix.Basic
import Mathlib.Tactic.Ring

namespace Hila

theorem runLoop_inv {S : Type} {n : ℕ} {f : ℕ → S → Option S} {s0 : S} (Inv : ℕ → S → Prop) (h0 : Inv 0 s0)
    (hs : ∀ i < n, ∀ s, Inv i s → ∃ t, f i s = some t ∧ Inv (i + 1) t) : ∃ t, runLoop n f s0 = some t ∧ Inv n t := by
  induction n with
  | zero => exact ⟨s0, rfl, h0⟩
  | succ n ih =>
    obtain ⟨t, ht, hi⟩ := ih (fun i hi => hs i (by omega))
    obtain ⟨u, hu, hj⟩ := hs n (by omega) t hi
    exact ⟨u, by rw [runLoop, ht]; exact hu, hj⟩

theorem runLoop_add {S : Type} (a b : ℕ) (f : ℕ → S → Option S) (s : S) :
    runLoop (a + b) f s = (runLoop a f s).bind (runLoop b fun k => f (a + k)) := by
  induction b with
  | zero => simp [runLoop]
  | succ b ih =>
    rw [← Nat.add_assoc, runLoop, ih, Option.bind_assoc]
    rfl

theorem runLoop_congr {S : Type} {n : ℕ} {f g : ℕ → S → Option S} {s : S} (h : ∀ i < n, ∀ s, f i s = g i s) : runLoop n f s = runLoop n g s := by
  induction n with
  | zero => rfl
  | succ n ih =>
    rw [runLoop, runLoop, ih (fun i hi => h i (by omega))]
    congr 1
    funext s; exact h n (by omega) s

/-- A step without a result, whatever the state is. -/
theorem runLoop_none {S : Type} (f : ℕ → S → Option S) (N k : ℕ) (hk : k < N) (h : ∀ s, f k s = none) (s : S) : runLoop N f s = none := by
  induction N with
  | zero => omega
  | succ N ih =>
    rw [runLoop]
    by_cases e : k = N
    · rw [← e]; cases runLoop k f s with
      | none => rfl
      | some t => exact h t
    · rw [ih (by omega)]; rfl

theorem loop2_flat {S : Type} (n m : ℕ) (body : ℕ → ℕ → S → Option S) (s : S) :
    loop2 n m body s = runLoop (n * m) (fun k => body (k / m) (k % m)) s := by
  induction n with
  | zero => simp [loop2, runLoop]
  | succ n ih =>
    have e : (n + 1) * m = n * m + m := by ring
    rw [e, runLoop_add, ← ih]
    unfold loop2
    rw [runLoop]
    congr 1
    funext t
    apply runLoop_congr
    intro j hj s
    have hm : 0 < m := by omega
    have e1 : (n * m + j) / m = n := by rw [Nat.add_comm, Nat.add_mul_div_right _ _ hm, Nat.div_eq_of_lt hj]; omega
    have e2 : (n * m + j) % m = j := by rw [Nat.add_comm, Nat.add_mul_mod_self_right, Nat.mod_eq_of_lt hj]
    rw [e1, e2]

/-- A sum in a loop. -/
theorem runLoop_sum {K : Type} [AddCommMonoid K] (n : ℕ) (g : ℕ → Option K) (h : ℕ → K) (hg : ∀ i < n, g i = some (h i)) (t : K) :
    runLoop n (fun i t => (g i).map fun x => t + x) t = some (t + ∑ i ∈ Finset.range n, h i) := by
  induction n with
  | zero => simp [runLoop]
  | succ n ih =>
    rw [runLoop, ih (fun i hi => hg i (by omega)), Finset.sum_range_succ]
    simp only [Option.bind_some]
    rw [hg n (by omega), Option.map_some, add_assoc]

namespace MatT
variable {K : Type} {n m p : ℕ}

theorem idx_lt {i j : ℕ} (hi : i < n) (hj : j < m) : i * m + j < n * m := by
  calc i * m + j < i * m + m := by omega
    _ = (i + 1) * m := by ring
    _ ≤ n * m := Nat.mul_le_mul_right m hi

theorem idx_inj {i j i' j' : ℕ} (hj : j < m) (hj' : j' < m) (h : i * m + j = i' * m + j') : i = i' ∧ j = j' := by
  have hm : 0 < m := by omega
  have a : (i * m + j) / m = i := by rw [Nat.add_comm, Nat.add_mul_div_right _ _ hm, Nat.div_eq_of_lt hj]; omega
  have b : (i' * m + j') / m = i' := by rw [Nat.add_comm, Nat.add_mul_div_right _ _ hm, Nat.div_eq_of_lt hj']; omega
  have : i = i' := by rw [← a, ← b, h]
  subst this
  exact ⟨rfl, by omega⟩

theorem idx_split {k : ℕ} (hk : k < n * m) : k / m < n ∧ k % m < m ∧ k / m * m + k % m = k := by
  have hm : 0 < m := by rcases Nat.eq_zero_or_pos m with h | h
                        · subst h; simp at hk
                        · exact h
  exact ⟨Nat.div_lt_of_lt_mul (by rw [Nat.mul_comm]; exact hk), Nat.mod_lt _ hm, by rw [Nat.mul_comm]; exact Nat.div_add_mod k m⟩

theorem put_some (a : MatT K n m) {k : ℕ} (hk : k < n * m) (v : K) :
    ∃ r, a.put k v = some r ∧ r.at' k = some v ∧ ∀ x, x ≠ k → r.at' x = a.at' x := by
  refine ⟨⟨fun x => if x = k then some v else a.c x⟩, by unfold put; rw [if_pos hk], by unfold at'; rw [if_pos hk]; simp, fun x hx => ?_⟩
  unfold at'
  split
  · simp [hx]
  · rfl

theorem put_put (a : MatT K n m) (k : ℕ) (v w : K) : (a.put k v).bind (fun r => r.put k w) = a.put k w := by
  unfold put
  by_cases hk : k < n * m
  · simp only [if_pos hk, Option.bind_some]
    congr 2
    funext x
    by_cases h : x = k <;> simp [h]
  · simp only [if_neg hk]; rfl

theorem upd_eq (a : MatT K n m) {k : ℕ} {x : K} (h : a.at' k = some x) (f : K → Option K) : a.upd k f = (f x).bind (a.put k) := by
  unfold upd; rw [h]; rfl

/-- Steps that each write one place, none twice. -/
theorem fillPos (N : ℕ) (s0 : MatT K n m) (pos : ℕ → ℕ) (G : ℕ → K) (body : ℕ → MatT K n m → Option (MatT K n m))
    (hp : ∀ k < N, pos k < n * m) (hinj : ∀ k < N, ∀ l < N, pos k = pos l → k = l)
    (h : ∀ k < N, ∀ s : MatT K n m, (∀ x < k, s.at' (pos x) = some (G x)) → (∀ y, (∀ x < k, pos x ≠ y) → s.at' y = s0.at' y) →
      body k s = s.put (pos k) (G k)) :
    ∃ r, runLoop N body s0 = some r ∧ (∀ x < N, r.at' (pos x) = some (G x)) ∧ ∀ y, (∀ x < N, pos x ≠ y) → r.at' y = s0.at' y := by
  obtain ⟨r, hr, h1, h2⟩ := runLoop_inv (n := N) (f := body) (s0 := s0)
    (fun k s => (∀ x < k, s.at' (pos x) = some (G x)) ∧ ∀ y, (∀ x < k, pos x ≠ y) → s.at' y = s0.at' y)
    ⟨by omega, fun y _ => rfl⟩ (by
      intro k hk s ⟨h1, h2⟩
      obtain ⟨t, ht, e1, e2⟩ := put_some s (hp k hk) (G k)
      refine ⟨t, by rw [h k hk s h1 h2, ht], ?_, ?_⟩
      · intro x hx
        by_cases hxk : x = k
        · subst hxk; exact e1
        · rw [e2 _ (fun e => hxk (hinj x (by omega) k hk e))]; exact h1 x (by omega)
      · intro y hy
        rw [e2 y (fun e => hy k (by omega) e.symm)]
        exact h2 y (fun x hx => hy x (by omega)))
  exact ⟨r, hr, h1, h2⟩

/-- Steps over all elements in the order of the array. -/
theorem fillFlat (s0 : MatT K n m) (G : ℕ → K) (body : ℕ → MatT K n m → Option (MatT K n m))
    (h : ∀ k < n * m, ∀ s : MatT K n m, s.at' k = s0.at' k → body k s = s.put k (G k)) :
    ∃ r, runLoop (n * m) body s0 = some r ∧ ∀ x < n * m, r.at' x = some (G x) := by
  obtain ⟨r, hr, h1, -⟩ := fillPos (n * m) s0 id G body (fun _ h => h) (fun _ _ _ _ h => h)
    (fun k hk s _ h2 => h k hk s (h2 k (fun x hx => by simp only [id]; omega)))
  exact ⟨r, hr, h1⟩

/-- Two loops over all elements. -/
theorem fill2 (s0 : MatT K n m) (F : ℕ → ℕ → K) (body : ℕ → ℕ → MatT K n m → Option (MatT K n m))
    (h : ∀ i < n, ∀ j < m, ∀ s : MatT K n m, s.e i j = s0.e i j → body i j s = s.setE i j (F i j)) :
    ∃ r, loop2 n m body s0 = some r ∧ ∀ i < n, ∀ j < m, r.e i j = some (F i j) := by
  obtain ⟨r, hr, h1⟩ := fillFlat s0 (fun k => F (k / m) (k % m)) (fun k => body (k / m) (k % m)) (fun k hk s hs => by
    obtain ⟨a, b, c⟩ := idx_split hk
    have := h _ a _ b s (by unfold e; rw [c]; exact hs)
    rw [this]; unfold setE; rw [c])
  refine ⟨r, by rw [loop2_flat]; exact hr, fun i hi j hj => ?_⟩
  have hm : 0 < m := by omega
  unfold e
  rw [h1 _ (idx_lt hi hj)]
  have e1 : (i * m + j) / m = i := by rw [Nat.add_comm, Nat.add_mul_div_right _ _ hm, Nat.div_eq_of_lt hj]; omega
  have e2 : (i * m + j) % m = j := by rw [Nat.add_comm, Nat.add_mul_mod_self_right, Nat.mod_eq_of_lt hj]
  rw [e1, e2]

/-- Two loops that write the transposed place. -/
theorem fill2T (s0 : MatT K m n) (F : ℕ → ℕ → K) (body : ℕ → ℕ → MatT K m n → Option (MatT K m n))
    (h : ∀ i < n, ∀ j < m, ∀ s : MatT K m n, body i j s = s.setE j i (F i j)) :
    ∃ r, loop2 n m body s0 = some r ∧ ∀ i < n, ∀ j < m, r.e j i = some (F i j) := by
  obtain ⟨r, hr, h1, -⟩ := fillPos (n * m) s0 (fun k => k % m * n + k / m) (fun k => F (k / m) (k % m)) (fun k => body (k / m) (k % m))
    (fun k hk => by obtain ⟨a, b, c⟩ := idx_split hk; exact idx_lt b a)
    (fun k hk l hl e => by
      obtain ⟨a, b, c⟩ := idx_split hk
      obtain ⟨a', b', c'⟩ := idx_split hl
      obtain ⟨e1, e2⟩ := idx_inj a a' e
      rw [← c, ← c', e1, e2])
    (fun k hk s _ _ => by
      obtain ⟨a, b, c⟩ := idx_split hk
      rw [h _ a _ b s]; rfl)
  refine ⟨r, by rw [loop2_flat]; exact hr, fun i hi j hj => ?_⟩
  have hm : 0 < m := by omega
  have e1 : (i * m + j) / m = i := by rw [Nat.add_comm, Nat.add_mul_div_right _ _ hm, Nat.div_eq_of_lt hj]; omega
  have e2 : (i * m + j) % m = j := by rw [Nat.add_comm, Nat.add_mul_mod_self_right, Nat.mod_eq_of_lt hj]
  have := h1 _ (idx_lt hi hj)
  simp only [e1, e2] at this
  exact this

/-- The elements of a matrix with natural numbers as indices. -/
def ex [Zero K] (A : Matrix (Fin n) (Fin m) K) (i j : ℕ) : K := if h : i < n ∧ j < m then A ⟨i, h.1⟩ ⟨j, h.2⟩ else 0

@[simp] theorem ex_val [Zero K] (A : Matrix (Fin n) (Fin m) K) (i : Fin n) (j : Fin m) : ex A i j = A i j := by
  unfold ex; rw [dif_pos ⟨i.2, j.2⟩]

theorem Is.e [Zero K] {a : MatT K n m} {A : Matrix (Fin n) (Fin m) K} (h : a.Is A) {i j : ℕ} (hi : i < n) (hj : j < m) : a.e i j = some (ex A i j) := by
  have := h ⟨i, hi⟩ ⟨j, hj⟩
  rw [this, ← ex_val A ⟨i, hi⟩ ⟨j, hj⟩]

theorem Is.at' [Zero K] {a : MatT K n m} {A : Matrix (Fin n) (Fin m) K} (h : a.Is A) {k : ℕ} (hk : k < n * m) :
    a.at' k = some (ex A (k / m) (k % m)) := by
  obtain ⟨x, y, z⟩ := idx_split hk
  have := h.e x y
  unfold MatT.e at this
  rw [z] at this; exact this

theorem Is.of [Zero K] {a : MatT K n m} {A : Matrix (Fin n) (Fin m) K} (F : ℕ → ℕ → K) (h : ∀ i < n, ∀ j < m, a.e i j = some (F i j))
    (hF : ∀ (i : Fin n) (j : Fin m), F i j = A i j) : a.Is A := fun i j => by rw [h i i.2 j j.2, hF]

theorem Is.flat [Zero K] {a : MatT K n m} {A : Matrix (Fin n) (Fin m) K} (F : ℕ → ℕ → K) (h : ∀ k < n * m, a.at' k = some (F (k / m) (k % m)))
    (hF : ∀ (i : Fin n) (j : Fin m), F i j = A i j) : a.Is A := fun i j => by
  have hm : 0 < m := j.pos
  unfold MatT.e
  rw [h _ (idx_lt i.2 j.2)]
  have e1 : (i.val * m + j.val) / m = i := by rw [Nat.add_comm, Nat.add_mul_div_right _ _ hm, Nat.div_eq_of_lt j.2]; omega
  have e2 : (i.val * m + j.val) % m = j := by rw [Nat.add_comm, Nat.add_mul_mod_self_right, Nat.mod_eq_of_lt j.2]
  rw [e1, e2, hF]

theorem Is.unique {a : MatT K n m} {A B : Matrix (Fin n) (Fin m) K} (h : a.Is A) (h' : a.Is B) : A = B := by
  ext i j
  have := h i j
  rw [h' i j] at this
  exact (Option.some.inj this).symm

section
variable [Zero K] {L : Type} [Zero L]

theorem mapC_yields {a : MatT K n m} {A : Matrix (Fin n) (Fin m) K} (ha : a.Is A) (f : K → Option L) (g : K → L)
    (hf : ∀ x, f x = some (g x)) : Yields (a.mapC f) (fun i j => g (A i j)) := by
  obtain ⟨r, hr, h1⟩ := fillFlat (n := n) (m := m) unset (fun k => g (ex A (k / m) (k % m)))
    (fun i r => (a.at' i).bind fun x => (f x).bind (r.put i)) (fun k hk s _ => by rw [ha.at' hk]; simp [hf])
  exact ⟨r, hr, Is.flat (fun i j => g (ex A i j)) h1 (fun i j => by rw [ex_val])⟩

theorem updC_yields {a : MatT K n m} {A : Matrix (Fin n) (Fin m) K} (ha : a.Is A) (f : K → Option K) (g : K → K)
    (hf : ∀ x, f x = some (g x)) : Yields (a.updC f) (fun i j => g (A i j)) := by
  obtain ⟨r, hr, h1⟩ := fillFlat (n := n) (m := m) a (fun k => g (ex A (k / m) (k % m)))
    (fun i r => r.upd i f) (fun k hk s hs => by
      rw [upd_eq s (by rw [hs]; exact ha.at' hk), hf]; rfl)
  exact ⟨r, hr, Is.flat (fun i j => g (ex A i j)) h1 (fun i j => by rw [ex_val])⟩

end

theorem sum_flat {M : Type} [AddCommMonoid M] (n m : ℕ) (f : ℕ → ℕ → M) :
    ∑ k ∈ Finset.range (n * m), f (k / m) (k % m) = ∑ i : Fin n, ∑ j : Fin m, f i j := by
  induction n with
  | zero => simp
  | succ n ih =>
    rw [Nat.succ_mul, Finset.sum_range_add, ih, Fin.sum_univ_castSucc]
    congr 1
    rw [Finset.sum_range]
    apply Finset.sum_congr rfl
    intro j _
    have hm : 0 < m := j.pos
    have e1 : (n * m + j.val) / m = n := by rw [Nat.add_comm, Nat.add_mul_div_right _ _ hm, Nat.div_eq_of_lt j.2]; omega
    have e2 : (n * m + j.val) % m = j := by rw [Nat.add_comm, Nat.add_mul_mod_self_right, Nat.mod_eq_of_lt j.2]
    rw [e1, e2]; rfl

variable [Field K]

theorem sumInto_eq (f : ℕ → Option K) (g : ℕ → K) (hp : 0 < p) (hf : ∀ k < p, f k = some (g k)) {k0 : ℕ} (hk0 : k0 < n * m) (r : MatT K n m) :
    sumInto p f k0 r = r.put k0 (∑ k ∈ Finset.range p, g k) := by
  obtain ⟨q, rfl⟩ : ∃ q, p = q + 1 := ⟨p - 1, by omega⟩
  unfold sumInto
  rw [hf 0 hp]
  simp only [Option.bind_some, Nat.add_sub_cancel]
  clear hp
  induction q with
  | zero => simp [runLoop]
  | succ q ih =>
    rw [show (runLoop (q + 1) fun k (r : MatT K n m) => (f (k + 1)).bind fun y => r.upd k0 fun x => some (x + y)) =
      fun z => (runLoop q (fun k (r : MatT K n m) => (f (k + 1)).bind fun y => r.upd k0 fun x => some (x + y)) z).bind
        fun r : MatT K n m => (f (q + 1)).bind fun y => r.upd k0 fun x => some (x + y) from rfl]
    rw [← Option.bind_assoc, ih (fun k hk => hf k (by omega)), hf (q + 1) (by omega)]
    simp only [Option.bind_some]
    obtain ⟨t, ht, e1, -⟩ := put_some r hk0 (∑ k ∈ Finset.range (q + 1), g k)
    rw [ht]
    simp only [Option.bind_some]
    rw [upd_eq t e1]
    simp only [Option.bind_some]
    have := put_put r k0 (∑ k ∈ Finset.range (q + 1), g k) (∑ k ∈ Finset.range (q + 1 + 1), g k)
    rw [ht] at this
    simp only [Option.bind_some] at this
    rw [← this, Finset.sum_range_succ _ (q + 1)]

omit [Field K] in
/-- `r += f(0); …; r += f(p-1)` -/
theorem addInto_eq (f : ℕ → Option K) (g : ℕ → K) (hf : ∀ k < p, f k = some (g k)) {k0 : ℕ} (hk0 : k0 < n * m) (r : MatT K n m) {v : K}
    (hv : r.at' k0 = some v) (op : K → K → K) :
    ∃ w, runLoop p (fun k r => (f k).bind fun y => r.upd k0 fun x => some (op x y)) r = (r.put k0 w) ∧
      w = (List.range p).foldl (fun x k => op x (g k)) v := by
  induction p with
  | zero =>
    refine ⟨v, ?_, rfl⟩
    simp only [runLoop]
    unfold put
    rw [if_pos hk0]
    congr 1
    cases r with
    | mk c =>
      congr 1
      funext x
      by_cases h : x = k0
      · subst h
        unfold MatT.at' at hv; rw [if_pos hk0] at hv
        simp only [if_true]; exact hv
      · simp [h]
  | succ p ih =>
    obtain ⟨w, hw, e⟩ := ih (fun k hk => hf k (by omega))
    refine ⟨op w (g p), ?_, ?_⟩
    · rw [runLoop, hw, hf p (by omega)]
      obtain ⟨t, ht, e1, -⟩ := put_some r hk0 w
      rw [ht]
      simp only [Option.bind_some]
      rw [upd_eq t e1]
      have := put_put r k0 w (op w (g p))
      rw [ht] at this
      simpa using this
    · rw [List.range_succ, List.foldl_append, ← e]; rfl

theorem foldl_add (g : ℕ → K) (v : K) (p : ℕ) : (List.range p).foldl (fun x k => x + g k) v = v + ∑ k ∈ Finset.range p, g k := by
  induction p with
  | zero => simp
  | succ p ih => rw [List.range_succ, List.foldl_append, ih, Finset.sum_range_succ]; simp [add_assoc]

theorem foldl_sub (g : ℕ → K) (v : K) (p : ℕ) : (List.range p).foldl (fun x k => x - g k) v = v - ∑ k ∈ Finset.range p, g k := by
  induction p with
  | zero => simp
  | succ p ih => rw [List.range_succ, List.foldl_append, ih, Finset.sum_range_succ]; simp [sub_sub]

end MatT
end Hila
