import Verif.Lemmas.MaxKeeps
import Verif.Props.Shuffle

/-!
# C98: the overrelaxation of a link with the matrix that is rotated towards its staple
-/

namespace Hila

open MeasureTheory Matrix
open scoped ENNReal

variable {N : ℕ}

/-! ### The rotation -/

/-- **C98 (rotation).** Whatever the staple and the order of the indices, the matrix that is returned is in SU(N), and `Re tr(V S)` is at least what the unit matrix gives. -/
theorem C98_rot_partial [NeZero N] (eps : ℝ) (order : List (Fin N)) (ho : order.Perm (List.finRange N)) (S V : Mat N) (h : maxStapleRot eps order S = some V) :
    V ∈ specialUnitaryGroup (Fin N) ℂ ∧ S.trace.re ≤ (V * S).trace.re :=
  have h1 := maxStapleRot_inv eps order (perm_nodup ho) S V h
  ⟨h1.1.1, h1.1.2.2⟩

theorem orderPairs_last {α : Type} (l : List α) (p q : α) : (orderPairs (l ++ [p, q])).getLast? = some (p, q) := by
  induction l with
  | nil => rfl
  | cons a l ih =>
    rw [List.cons_append, orderPairs, List.getLast?_append, ih]
    rfl

/-- **C98 (last subgroup).** No rotation in the subgroup of the last two indices can make `Re tr(V S)` larger. -/
theorem C98_last_subgroup [NeZero N] (eps : ℝ) (l : List (Fin N)) (p q : Fin N) (ho : (l ++ [p, q]).Perm (List.finRange N)) (S V : Mat N)
    (h : maxStapleRot eps (l ++ [p, q]) S = some V) (g : Matrix (Fin 2) (Fin 2) ℂ) (hg : g ∈ specialUnitaryGroup (Fin 2) ℂ) :
    (embed p q g * (V * S)).trace.re ≤ (V * S).trace.re := by
  have hnd := perm_nodup ho
  have hpq : p ≠ q := by
    have := (List.nodup_append.1 hnd).2.1
    simpa using this
  have hN : 2 ≤ N := by
    have := ho.length_eq
    rw [List.length_append, List.length_finRange] at this
    simp at this
    omega
  have h1 := (maxStapleRot_inv eps _ hnd S V h).2 hN (p, q) (orderPairs_last l p q) ⟨g, hg⟩
  rwa [embSU_val (pq := (p, q)) hpq] at h1

/-- **C98 (SU(2)).** For two colors the matrix has the largest `Re tr(V S)` of all elements of the group. -/
theorem C98_two_maximum [NeZero 2] (eps : ℝ) (order : List (Fin 2)) (ho : order.Perm (List.finRange 2)) (S V : Mat 2) (h : maxStapleRot eps order S = some V)
    (W : Mat 2) (hW : W ∈ specialUnitaryGroup (Fin 2) ℂ) : (W * S).trace.re ≤ (V * S).trace.re :=
  rot_two_max eps order ho S V h ⟨W, hW⟩

/-- **C98 (pairs).** An iteration turns every pair of colors exactly once: the list has no repetitions, and of `(p, q)` and `(q, p)` it contains exactly one. -/
theorem C98_pairs (order : List (Fin N)) (ho : order.Perm (List.finRange N)) :
    (orderPairs order).Nodup ∧ (∀ p, (p, p) ∉ orderPairs order) ∧ ∀ p q, p ≠ q → ((p, q) ∈ orderPairs order ↔ (q, p) ∉ orderPairs order) := by
  have gen : ∀ l : List (Fin N), l.Nodup → (orderPairs l).Nodup ∧ (∀ p q, (p, q) ∈ orderPairs l → p ∈ l ∧ q ∈ l) ∧
      ∀ p q, p ∈ l → q ∈ l → p ≠ q → ((p, q) ∈ orderPairs l ↔ (q, p) ∉ orderPairs l) := by
    intro l
    induction l with
    | nil => intro _; simp [orderPairs]
    | cons a l ih =>
      intro h
      obtain ⟨ha, hl⟩ := List.nodup_cons.1 h
      obtain ⟨h1, h2, h3⟩ := ih hl
      have mem : ∀ p q, (p, q) ∈ orderPairs (a :: l) ↔ (p = a ∧ q ∈ l) ∨ (p, q) ∈ orderPairs l := by
        intro p q
        rw [orderPairs, List.mem_append, List.mem_map]
        constructor
        · rintro (⟨b, hb, e⟩ | h)
          · obtain ⟨rfl, rfl⟩ := Prod.mk.inj e
            exact Or.inl ⟨rfl, hb⟩
          · exact Or.inr h
        · rintro (⟨rfl, hq⟩ | h)
          · exact Or.inl ⟨q, hq, rfl⟩
          · exact Or.inr h
      refine ⟨?_, ?_, ?_⟩
      · rw [orderPairs, List.nodup_append]
        refine ⟨hl.map fun x y e => (Prod.mk.inj e).2, h1, ?_⟩
        rintro x hx y hy rfl
        obtain ⟨b, _, rfl⟩ := List.mem_map.1 hx
        exact ha (h2 _ _ hy).1
      · intro p q hp
        rcases (mem p q).1 hp with ⟨rfl, hq⟩ | hp
        · exact ⟨List.mem_cons_self, List.mem_cons_of_mem _ hq⟩
        · exact ⟨List.mem_cons_of_mem _ (h2 p q hp).1, List.mem_cons_of_mem _ (h2 p q hp).2⟩
      · intro p q hp hq hpq
        rw [mem, mem]
        rcases List.mem_cons.1 hp with rfl | hp'
        · have hq' : q ∈ l := (List.mem_cons.1 hq).resolve_left (Ne.symm hpq)
          refine ⟨fun _ => ?_, fun _ => Or.inl ⟨rfl, hq'⟩⟩
          rintro (⟨_, h⟩ | h)
          · exact ha h
          · exact ha (h2 _ _ h).2
        · rcases List.mem_cons.1 hq with rfl | hq'
          · refine ⟨?_, fun h => absurd (Or.inl ⟨rfl, by assumption⟩) h⟩
            rintro (⟨h, _⟩ | h)
            · exact absurd h hpq
            · exact absurd (h2 _ _ h).2 ha
          · have e1 : ¬ (p = a ∧ q ∈ l) := fun h => ha (h.1 ▸ hp')
            have e2 : ¬ (q = a ∧ p ∈ l) := fun h => ha (h.1 ▸ hq')
            rw [h3 p q hp' hq' hpq]
            tauto
  obtain ⟨h1, _, h3⟩ := gen order (perm_nodup ho)
  refine ⟨h1, fun p h => orderPairs_ne order (perm_nodup ho) _ h rfl, fun p q hpq => h3 p q ?_ ?_ hpq⟩
  · exact ho.mem_iff.2 (List.mem_finRange p)
  · exact ho.mem_iff.2 (List.mem_finRange q)

/-- **C98 (order).** With random numbers in [0, 1) there is an order, it contains every color once, and it depends on the first `N - 1` numbers only. -/
theorem C98_order (u : ℕ → ℝ) (hu : ∀ k, 0 ≤ u k ∧ u k < 1) :
    (∃ order, shuffledIdx N u = some order ∧ order.Perm (List.finRange N)) ∧ ∀ v : ℕ → ℝ, (∀ k < N - 1, u k = v k) → shuffledIdx N u = shuffledIdx N v := by
  refine ⟨C21_shuffle_perm (List.finRange N) _ fun j => ?_, fun v => shuffledIdx_congr N u v⟩
  have h := hu (N - 1 - j)
  have : ⌊((j : ℝ) + 1) * u (N - 1 - j)⌋₊ < j + 1 := by
    rw [Nat.floor_lt (mul_nonneg (by positivity) h.1)]
    push_cast
    nlinarith [h.2, (Nat.cast_nonneg j : (0 : ℝ) ≤ j)]
  omega

/-! ### The test for the end -/

/-- **C98 (end of the iteration).** The measured distance vanishes exactly for the matrices `H + i c` with a hermitian matrix `H` and a real number `c`. -/
theorem C98_distance [NeZero N] (A : Mat N) : (maxNorms A).2 = 0 ↔ ∃ (H : Mat N) (c : ℝ), Hᴴ = H ∧ A = H + ((c : ℂ) * Complex.I) • (1 : Mat N) := by
  have hs : ∀ t1 t2 : Fin N, 0 ≤ (if t1 < t2 then 0.5 * Complex.normSq (A t1 t2 - starRingEnd ℂ (A t2 t1)) else 0) := by
    intro t1 t2
    split
    · exact mul_nonneg (by norm_num) (Complex.normSq_nonneg _)
    · exact le_refl _
  have h1 : 0 ≤ ∑ t, ((A t t).im - (A (lastIdx N) (lastIdx N)).im) ^ 2 := Finset.sum_nonneg fun t _ => sq_nonneg _
  have h2 : 0 ≤ ∑ t1, ∑ t2, (if t1 < t2 then 0.5 * Complex.normSq (A t1 t2 - starRingEnd ℂ (A t2 t1)) else 0) :=
    Finset.sum_nonneg fun t1 _ => Finset.sum_nonneg fun t2 _ => hs t1 t2
  unfold maxNorms
  dsimp only
  rw [add_eq_zero_iff_of_nonneg h1 h2, Finset.sum_eq_zero_iff_of_nonneg fun t _ => sq_nonneg _,
    Finset.sum_eq_zero_iff_of_nonneg fun t1 _ => Finset.sum_nonneg fun t2 _ => hs t1 t2]
  constructor
  · rintro ⟨hd, ho⟩
    have hod : ∀ t1 t2 : Fin N, t1 < t2 → A t1 t2 = starRingEnd ℂ (A t2 t1) := by
      intro t1 t2 hlt
      have h3 := ho t1 (Finset.mem_univ _)
      rw [Finset.sum_eq_zero_iff_of_nonneg fun t2 _ => hs t1 t2] at h3
      have h4 := h3 t2 (Finset.mem_univ _)
      rw [if_pos hlt, mul_eq_zero] at h4
      rcases h4 with h4 | h4
      · norm_num at h4
      · exact sub_eq_zero.1 (Complex.normSq_eq_zero.1 h4)
    refine ⟨A - (((A (lastIdx N) (lastIdx N)).im : ℂ) * Complex.I) • 1, (A (lastIdx N) (lastIdx N)).im, ?_, by rw [sub_add_cancel]⟩
    ext i j
    rw [Matrix.conjTranspose_apply, Matrix.sub_apply, Matrix.sub_apply, Matrix.smul_apply, Matrix.smul_apply]
    rcases lt_trichotomy i j with hij | rfl | hij
    · rw [Matrix.one_apply_ne hij.ne', Matrix.one_apply_ne hij.ne, smul_zero, sub_zero, sub_zero, hod i j hij]
      rfl
    · have h3 := hd i (Finset.mem_univ _)
      have h4 : (A i i).im = (A (lastIdx N) (lastIdx N)).im := by nlinarith [pow_eq_zero_iff (two_ne_zero) |>.1 h3]
      rw [Matrix.one_apply_eq, ← h4]
      apply Complex.ext <;> simp
    · rw [Matrix.one_apply_ne hij.ne', Matrix.one_apply_ne hij.ne, smul_zero, sub_zero, sub_zero, hod j i hij]
      simp
  · rintro ⟨H, c, hH, rfl⟩
    have hHe : ∀ i j, starRingEnd ℂ (H j i) = H i j := fun i j => by
      have := congrFun (congrFun hH i) j
      rwa [Matrix.conjTranspose_apply] at this
    have him : ∀ t, (H t t).im = 0 := fun t => Complex.conj_eq_iff_im.1 (hHe t t)
    refine ⟨fun t _ => ?_, fun t1 _ => Finset.sum_eq_zero fun t2 _ => ?_⟩
    · simp [him]
    · by_cases hlt : t1 < t2
      · rw [if_pos hlt]
        simp [Matrix.one_apply_ne hlt.ne, Matrix.one_apply_ne hlt.ne', hHe]
      · rw [if_neg hlt]

theorem maxHit_fixed (H : Mat N) (c : ℝ) (hH : Hᴴ = H) (pq : Fin N × Fin N) (hpq : pq.1 ≠ pq.2) (hpos : 0 < (H pq.1 pq.1).re + (H pq.2 pq.2).re) :
    maxHit (H + ((c : ℂ) * Complex.I) • (1 : Mat N), 1) pq = some (H + ((c : ℂ) * Complex.I) • (1 : Mat N), 1) := by
  have hHe : ∀ i j, starRingEnd ℂ (H j i) = H i j := fun i j => by
    have := congrFun (congrFun hH i) j
    rwa [Matrix.conjTranspose_apply] at this
  have him : ∀ t, (H t t).im = 0 := fun t => Complex.conj_eq_iff_im.1 (hHe t t)
  have hre : (H pq.1 pq.2).re = (H pq.2 pq.1).re := by rw [← hHe pq.1 pq.2, Complex.conj_re]
  have hio : (H pq.1 pq.2).im = -(H pq.2 pq.1).im := by rw [← hHe pq.1 pq.2, Complex.conj_im]
  have hl : hitLength (H + ((c : ℂ) * Complex.I) • (1 : Mat N)) pq = (H pq.1 pq.1).re + (H pq.2 pq.2).re := by
    unfold hitLength
    rw [← Real.sqrt_sq hpos.le]
    congr 1
    simp [Matrix.one_apply_ne hpq, Matrix.one_apply_ne hpq.symm, him, hre, hio]
  have hne : hitLength (H + ((c : ℂ) * Complex.I) • (1 : Mat N)) pq ≠ 0 := by rw [hl]; exact hpos.ne'
  have h1 : toSU (subVec (H + ((c : ℂ) * Complex.I) • (1 : Mat N)) pq) = 1 := by
    refine Subtype.ext ?_
    rw [toSU_sub hne, hl]
    unfold SU2.toMatrix SU2.div qOf subVec
    ext i j
    fin_cases i <;> fin_cases j <;> apply Complex.ext <;>
      simp [Matrix.one_apply_ne hpq, Matrix.one_apply_ne hpq.symm, him, hre, hio, div_self hpos.ne']
  rw [maxHit_eq _ _ _ hpq, if_neg hne, h1, embSU_one]
  simp

theorem maxFold_fixed {S A : Type} (f : S → A → Option S) (l : List A) (s : S) (h : ∀ a ∈ l, f s a = some s) : l.foldlM f s = some s := by
  induction l with
  | nil => rfl
  | cons a l ih =>
    rw [List.foldlM_cons, h a List.mem_cons_self]
    exact ih fun b hb => h b (List.mem_cons_of_mem _ hb)

theorem maxIter_fixed [NeZero N] (eps : ℝ) (l : List (Fin N × Fin N)) (s : Mat N × Mat N) (h : l.foldlM maxHit s = some s) (k : ℕ) : maxIter eps l k s = some s := by
  induction k with
  | zero => rfl
  | succ k ih =>
    rw [maxIter, h, Option.bind_some]
    split
    · rfl
    · exact ih

/-- **C98 (fixed points).** For a staple `H + i c` with a hermitian matrix `H` whose diagonal elements have positive sums in pairs, and a real number `c`, the unit
matrix is returned, for every order. -/
theorem C98_stationary [NeZero N] (eps : ℝ) (order : List (Fin N)) (ho : order.Perm (List.finRange N)) (H : Mat N) (c : ℝ) (hH : Hᴴ = H)
    (hpos : ∀ p q, p ≠ q → 0 < (H p p).re + (H q q).re) : maxStapleRot eps order (H + ((c : ℂ) * Complex.I) • (1 : Mat N)) = some 1 := by
  unfold maxStapleRot
  rw [maxIter_fixed eps _ _ (maxFold_fixed maxHit _ _ fun pq hp => ?_)]
  · rfl
  · have hne := orderPairs_ne order (perm_nodup ho) pq hp
    exact maxHit_fixed H c hH pq hne (hpos _ _ hne)

example : maxStapleRot (N := 3) 0 [2, 0, 1] (Matrix.diagonal ![2, 1, 1] + (((4 : ℝ) : ℂ) * Complex.I) • (1 : Mat 3)) = some 1 := by
  refine C98_stationary 0 _ (by decide) _ 4 ?_ ?_
  · rw [Matrix.diagonal_conjTranspose]
    congr 1
    funext i
    fin_cases i <;> simp
  · intro p q _
    fin_cases p <;> fin_cases q <;> simp <;> norm_num

/-- **C98 (not the maximum).** For three colors the returned matrix need not have the largest `Re tr(V S)`: for the staple `1 + 4 i` times the unit matrix it is the
unit matrix, for every order, every tolerance and every number of iterations, but a third root of unity times the unit matrix gives more. -/
theorem C98_not_max_wrong (eps : ℝ) (order : List (Fin 3)) (ho : order.Perm (List.finRange 3)) :
    maxStapleRot eps order ((1 + 4 * Complex.I) • (1 : Mat 3)) = some 1 ∧
      ∃ W ∈ specialUnitaryGroup (Fin 3) ℂ, ((1 : Mat 3) * ((1 + 4 * Complex.I) • (1 : Mat 3))).trace.re < (W * ((1 + 4 * Complex.I) • (1 : Mat 3))).trace.re := by
  refine ⟨?_, ?_⟩
  · have h := C98_stationary eps order ho (1 : Mat 3) 4 Matrix.conjTranspose_one (by intro p q _; simp)
    rw [← h, add_smul, one_smul]
    norm_num
  · have h3 : Real.sqrt 3 * Real.sqrt 3 = 3 := Real.mul_self_sqrt (by norm_num)
    have hn : (⟨-1 / 2, -(Real.sqrt 3 / 2)⟩ : ℂ) * starRingEnd ℂ ⟨-1 / 2, -(Real.sqrt 3 / 2)⟩ = 1 := by
      apply Complex.ext <;> simp <;> nlinarith
    have hc : (⟨-1 / 2, -(Real.sqrt 3 / 2)⟩ : ℂ) ^ 3 = 1 := by
      rw [pow_succ, pow_two]
      apply Complex.ext
      · simp only [Complex.mul_re, Complex.mul_im, Complex.one_re]
        nlinarith
      · simp only [Complex.mul_re, Complex.mul_im, Complex.one_im]
        linear_combination (Real.sqrt 3 / 8) * h3
    refine ⟨(⟨-1 / 2, -(Real.sqrt 3 / 2)⟩ : ℂ) • 1, mem_specialUnitaryGroup_iff.2 ⟨?_, ?_⟩, ?_⟩
    · rw [mem_unitaryGroup_iff, star_eq_conjTranspose, Matrix.conjTranspose_smul, Matrix.conjTranspose_one, Matrix.smul_mul, Matrix.mul_smul, Matrix.mul_one, smul_smul]
      have : (⟨-1 / 2, -(Real.sqrt 3 / 2)⟩ : ℂ) * star (⟨-1 / 2, -(Real.sqrt 3 / 2)⟩ : ℂ) = 1 := hn
      rw [this, one_smul]
    · rw [Matrix.det_smul, Matrix.det_one, mul_one, Fintype.card_fin, hc]
    · have h17 : 1.7 < Real.sqrt 3 := by
        rw [Real.lt_sqrt (by norm_num)]; norm_num
      rw [Matrix.one_mul, Matrix.smul_mul, Matrix.one_mul, smul_smul, Matrix.trace_smul, Matrix.trace_smul, Matrix.trace_one]
      simp
      nlinarith

/-- **C98 (no projection).** For a staple without a projection on the subgroup of the first two indices, in particular for the staple zero, there is no result:
the program divides by zero. -/
theorem C98_zero [NeZero N] (eps beta : ℝ) (p q : Fin N) (l : List (Fin N)) (hpq : p ≠ q) (S : Mat N) (hd : S p p = -starRingEnd ℂ (S q q)) (ho : S p q = starRingEnd ℂ (S q p)) :
    maxStapleRot eps (p :: q :: l) S = none ∧ ∀ (U : Mat N) (u : ℕ → ℝ), maxOverrelax eps beta U 0 u = none := by
  have gen : ∀ (p q : Fin N) (l : List (Fin N)) (S : Mat N), p ≠ q → S p p = -starRingEnd ℂ (S q q) → S p q = starRingEnd ℂ (S q p) → 2 ≤ N →
      maxStapleRot eps (p :: q :: l) S = none := by
    intro p q l S hpq hd ho hN
    have hz : hitLength S (p, q) = 0 := by
      unfold hitLength
      rw [Real.sqrt_eq_zero (by positivity)]
      simp [hd, ho]
    have hk : ∃ k, maxNiter N = k + 1 := by
      refine Nat.exists_eq_succ_of_ne_zero ?_
      unfold maxNiter
      split
      · norm_num
      · have : 0 < (N - 1) * N := Nat.mul_pos (by omega) (by omega)
        nlinarith
    obtain ⟨k, hk⟩ := hk
    unfold maxStapleRot
    rw [hk, maxIter, orderPairs, List.map_cons, List.cons_append, List.foldlM_cons, maxHit_eq S 1 (p, q) hpq, if_pos hz]
    rfl
  have hN : 2 ≤ N := by
    have h1 := p.2; have h2 := q.2
    have h3 : p.1 ≠ q.1 := fun h => hpq (Fin.ext h)
    omega
  refine ⟨gen p q l S hpq hd ho hN, fun U u => ?_⟩
  unfold maxOverrelax
  cases hs : shuffledIdx N u with
  | none => rfl
  | some o =>
    have hp := shuffledIdx_perm u o hs
    have hlen := hp.length_eq
    rw [List.length_finRange] at hlen
    obtain ⟨a, b, l', rfl⟩ : ∃ a b l', o = a :: b :: l' := by
      match o, hlen with
      | [], h => simp at h; omega
      | [a], h => simp at h; omega
      | a :: b :: l', _ => exact ⟨a, b, l', rfl⟩
    have hab : a ≠ b := by
      have := perm_nodup hp
      simp at this
      tauto
    rw [Option.bind_some, Matrix.conjTranspose_zero, gen a b l' 0 hab (by simp) (by simp) hN]
    rfl

/-! ### The update -/

/-- **C98 (returned number).** The update returns 1 and the reflected link, or 0 and the old link; the second only for three or more colors, if the reflected link has
not more weight. The numbers of the shuffle are used and one more if the test needs it. -/
theorem C98_outcome [NeZero N] (eps beta : ℝ) (U S : Mat N) (u : ℕ → ℝ) (V : Mat N) (acc used : ℕ) (h : maxOverrelax eps beta U S u = some (V, acc, used)) :
    ∃ order Z, shuffledIdx N u = some order ∧ maxStapleRot eps order Sᴴ = some Z ∧
      ((acc = 1 ∧ V = Z * Uᴴ * Z) ∨ (acc = 0 ∧ V = U ∧ N ≠ 2 ∧ (Z * Uᴴ * Z * Sᴴ).trace.re ≤ (U * Sᴴ).trace.re)) ∧
      (used = N ↔ N ≠ 2 ∧ (Z * Uᴴ * Z * Sᴴ).trace.re ≤ (U * Sᴴ).trace.re) ∧ (used = N ∨ used = N - 1) := by
  have h0 : 0 < N := Nat.pos_of_ne_zero (NeZero.ne N)
  unfold maxOverrelax at h
  obtain ⟨o, h1, h2⟩ := Option.bind_eq_some_iff.1 h
  obtain ⟨Z, h3, h4⟩ := Option.map_eq_some_iff.1 h2
  refine ⟨o, Z, h1, h3, ?_⟩
  have e : ((Z * Uᴴ * Z - U) * Sᴴ).trace.re = (Z * Uᴴ * Z * Sᴴ).trace.re - (U * Sᴴ).trace.re := by
    rw [Matrix.sub_mul, Matrix.trace_sub, Complex.sub_re]
  by_cases hN : N = 2
  · rw [if_pos hN] at h4
    simp only [Prod.mk.injEq] at h4
    obtain ⟨rfl, rfl, rfl⟩ := h4
    exact ⟨Or.inl ⟨rfl, rfl⟩, ⟨fun h => by omega, fun h => absurd hN h.1⟩, Or.inr rfl⟩
  · rw [if_neg hN] at h4
    dsimp only at h4
    rw [e] at h4
    by_cases hd : 0 < (Z * Uᴴ * Z * Sᴴ).trace.re - (U * Sᴴ).trace.re
    · rw [if_pos hd] at h4
      simp only [Prod.mk.injEq] at h4
      obtain ⟨rfl, rfl, rfl⟩ := h4
      exact ⟨Or.inl ⟨rfl, rfl⟩, ⟨fun h => by omega, fun h => absurd h.2 (not_le.2 (by linarith))⟩, Or.inr rfl⟩
    · have hle : (Z * Uᴴ * Z * Sᴴ).trace.re ≤ (U * Sᴴ).trace.re := by linarith
      rw [if_neg hd] at h4
      by_cases hr : u (N - 1) < Real.exp (beta / N * ((Z * Uᴴ * Z * Sᴴ).trace.re - (U * Sᴴ).trace.re))
      · rw [if_pos hr] at h4
        simp only [Prod.mk.injEq] at h4
        obtain ⟨rfl, rfl, rfl⟩ := h4
        exact ⟨Or.inl ⟨rfl, rfl⟩, ⟨fun _ => ⟨hN, hle⟩, fun _ => by omega⟩, Or.inl (by omega)⟩
      · rw [if_neg hr] at h4
        simp only [Prod.mk.injEq] at h4
        obtain ⟨rfl, rfl, rfl⟩ := h4
        exact ⟨Or.inr ⟨rfl, rfl, hN, hle⟩, ⟨fun _ => ⟨hN, hle⟩, fun _ => by omega⟩, Or.inl (by omega)⟩

/-- **C98 (SU(2) update).** For two colors and a staple `k W`, `W` in SU(2) (every sum of products of links is of this form), the new link is in the group and has the
same `Re tr(U S†)`; it is `W U† W` for `k > 0`. -/
theorem C98_two [NeZero 2] (eps beta : ℝ) (U S : Mat 2) (hU : U ∈ specialUnitaryGroup (Fin 2) ℂ) (k : ℝ) (W : Mat 2) (hW : W ∈ specialUnitaryGroup (Fin 2) ℂ)
    (hS : S = (k : ℂ) • W) (u : ℕ → ℝ) (V : Mat 2) (acc used : ℕ) (h : maxOverrelax eps beta U S u = some (V, acc, used)) :
    V ∈ specialUnitaryGroup (Fin 2) ℂ ∧ (V * Sᴴ).trace.re = (U * Sᴴ).trace.re ∧ V = W * Uᴴ * W ∧ acc = 1 ∧ used = 1 := by
  unfold maxOverrelax at h
  obtain ⟨o, h1, h2⟩ := Option.bind_eq_some_iff.1 h
  obtain ⟨Z, h3, h4⟩ := Option.map_eq_some_iff.1 h2
  rw [if_pos rfl] at h4
  simp only [Prod.mk.injEq] at h4
  obtain ⟨rfl, rfl, rfl⟩ := h4
  have hp := shuffledIdx_perm u o h1
  have hmem := (C98_rot_partial eps o hp _ Z h3).1
  have hUH : Uᴴ ∈ specialUnitaryGroup (Fin 2) ℂ := (⟨U, hU⟩⁻¹ : SUN 2).2
  have hWW : W * Wᴴ = 1 := by
    have := (mem_specialUnitaryGroup_iff.1 hW).1
    rwa [mem_unitaryGroup_iff, star_eq_conjTranspose] at this
  -- the rotation is `W` or `-W`
  have key : Z = W ∨ Z = -W := by
    rcases lt_trichotomy k 0 with hk | hk | hk
    · right
      have hmW : -W ∈ specialUnitaryGroup (Fin 2) ℂ := by
        obtain ⟨a, b⟩ := mem_specialUnitaryGroup_iff.1 hW
        refine mem_specialUnitaryGroup_iff.2 ⟨?_, ?_⟩
        · rw [mem_unitaryGroup_iff, star_neg, neg_mul_neg]
          exact mem_unitaryGroup_iff.1 a
        · rw [Matrix.det_neg, b]; simp
      refine rot_two_eq eps o hp (neg_pos.2 hk) ⟨-W, hmW⟩ Z ?_
      rw [← h3, hS]
      congr 2
      simp
    · exfalso
      have h0 := (C98_zero eps beta (0 : Fin 2) 1 [] (by simp) (0 : Mat 2) (by simp) (by simp)).2 U u
      have h5 : S = 0 := by rw [hS, hk]; simp
      rw [← h5] at h0
      unfold maxOverrelax at h0
      rw [h0] at h
      cases h
    · left
      exact rot_two_eq eps o hp hk ⟨W, hW⟩ Z (by rw [← h3, hS])
  have hV : Z * Uᴴ * Z = W * Uᴴ * W := by
    rcases key with rfl | rfl
    · rfl
    · simp
  refine ⟨mul_mem (mul_mem hmem hUH) hmem, ?_, hV, rfl, rfl⟩
  have e1 : Sᴴ = (k : ℂ) • Wᴴ := by
    rw [hS, Matrix.conjTranspose_smul]
    simp
  rw [hV, e1, Matrix.mul_smul, Matrix.mul_smul, Matrix.mul_assoc _ W, hWW, Matrix.mul_one, Matrix.trace_smul, Matrix.trace_smul]
  have e2 : (W * Uᴴ).trace = starRingEnd ℂ (U * Wᴴ).trace := by
    rw [← Matrix.conjTranspose_conjTranspose (W * Uᴴ), Matrix.conjTranspose_mul, Matrix.conjTranspose_conjTranspose, Matrix.trace_conjTranspose]
    rfl
  rw [e2]
  simp [Complex.re_ofReal_mul]

/-- **C98 (SU(2) update has a result).** For two colors, a staple `k W` with `k ≠ 0` and `W` in SU(2), and numbers in [0, 1), there is a result. -/
theorem C98_two_defined [NeZero 2] (eps beta : ℝ) (U S : Mat 2) (k : ℝ) (hk : k ≠ 0) (W : Mat 2) (hW : W ∈ specialUnitaryGroup (Fin 2) ℂ)
    (hS : S = (k : ℂ) • W) (u : ℕ → ℝ) (hu : ∀ i, 0 ≤ u i ∧ u i < 1) : ∃ r, maxOverrelax eps beta U S u = some r := by
  obtain ⟨o, h1, h2⟩ := (C98_order (N := 2) u hu).1
  have hlen : o.length = 2 := by rw [h2.length_eq, List.length_finRange]
  obtain ⟨p, q, rfl⟩ := List.length_eq_two.1 hlen
  have hpq : p ≠ q := by
    have := perm_nodup h2
    simp at this
    exact this
  obtain ⟨x, hx, _⟩ := C28_group.2.1 W hW
  have hdet : x.det = 1 := (C28_group.1 x).1 (by rw [hx]; exact hW)
  have hne : hitLength Sᴴ (p, q) ≠ 0 := by
    intro h0
    unfold hitLength at h0
    rw [Real.sqrt_eq_zero (by positivity), hS, ← hx] at h0
    unfold SU2.det at hdet
    have hk2 : 0 < k ^ 2 := by positivity
    have hc : ∀ i : Fin 2, i = 0 ∨ i = 1 := fun i => by fin_cases i <;> simp
    rcases hc p with rfl | rfl <;> rcases hc q with rfl | rfl
    · exact hpq rfl
    · simp [SU2.toMatrix] at h0
      nlinarith
    · simp [SU2.toMatrix] at h0
      nlinarith
    · exact hpq rfl
  have h3 : ∃ Z, maxStapleRot eps [p, q] Sᴴ = some Z := by
    unfold maxStapleRot
    have e : orderPairs [p, q] = [(p, q)] := rfl
    have hn : maxNiter 2 = 1 := rfl
    rw [e, hn, maxIter, List.foldlM_cons, maxHit_eq _ _ (p, q) hpq, if_neg hne]
    simp only [Option.bind_eq_bind, Option.bind_some, List.foldlM_nil, Option.pure_def, maxIter, ite_self, Option.map_some]
    exact ⟨_, rfl⟩
  obtain ⟨Z, hZ⟩ := h3
  unfold maxOverrelax
  rw [h1, Option.bind_some, hZ]
  exact ⟨_, rfl⟩

/-- A staple of two colors with a result, and one without: its projection vanishes, although it is not zero. -/
example : (∃ r, maxOverrelax (N := 2) 0 1 1 (((-3 : ℝ) : ℂ) • 1) (fun _ => 0) = some r) ∧ maxStapleRot (N := 2) 0 [0, 1] !![1, 0; 0, -1] = none :=
  ⟨C98_two_defined 0 1 1 _ (-3) (by norm_num) 1 (one_mem _) rfl _ (by intro i; norm_num), (C98_zero 0 1 0 1 [] (by simp) _ (by simp) (by simp)).1⟩

/-- **C98 (the update samples).** For any number of colors, any staple (for two colors, a multiple of an element of the group), any tolerance and `β ≥ 0`: let the link have
the distribution with weight `exp(β/N Re tr(U S†))` and let the random numbers be independent and uniform. Then the new link together with the numbers that are left over
has the same joint distribution, independent of whether the rotation has a result: for every set `B`, the probability of a result in `B` is the probability of `B` times
the probability that the rotation has a result. -/
theorem C98_keeps [NeZero N] (haar : Measure (SUN N)) [IsProbabilityMeasure haar] [haar.IsMulLeftInvariant] (eps : ℝ) {beta : ℝ} (hb : 0 ≤ beta) (S : Mat N)
    (hS : N = 2 → ∃ k : ℝ, ∃ W ∈ specialUnitaryGroup (Fin N) ℂ, S = (k : ℂ) • W) (B : Set (SUN N × (ℕ → ℝ))) (hB : MeasurableSet B) :
    let π := (boltzmann haar fun U : SUN N => -(beta / N * (U.1 * Sᴴ).trace.re)).prod uniformStream
    π {z | ∃ V ∈ B, ∃ acc k, maxOverrelax eps beta z.1.1 S z.2 = some (V.1.1, acc, k) ∧ (fun i => z.2 (k + i)) = V.2} =
      π B * uniformStream {u | ∃ order Z, shuffledIdx N u = some order ∧ maxStapleRot eps order Sᴴ = some Z} := by
  intro π
  have h2 : N = 2 → ∀ u Z, rotSU eps S (shuffledIdx N u) = some Z → ∀ U : SUN N, (((Z * U⁻¹ * Z).1 - U.1) * Sᴴ).trace.re = 0 := by
    intro hN u Z hZ U
    subst hN
    obtain ⟨k, W, hW, hSW⟩ := hS rfl
    have h3 := ((maxOverrelax_eq eps beta U S u).1 (maxAfter beta S Z U (shiftBy (2 - 1) u))).2 (by rw [hZ]; rfl)
    obtain ⟨acc, l, h4, _⟩ := h3
    have h5 := C98_two eps beta U.1 S U.2 k W hW hSW u _ acc l h4
    have e : (maxAfter beta S Z U (shiftBy (2 - 1) u)).1 = Z * U⁻¹ * Z := by
      unfold maxAfter
      rw [if_pos rfl]
    rw [e] at h5
    rw [Matrix.sub_mul, Matrix.trace_sub, Complex.sub_re, h5.2.1, sub_self]
  have hF : Measurable (B.indicator fun _ => (1 : ℝ≥0∞)) := measurable_const.indicator hB
  obtain ⟨hm, hD, hI⟩ := maxOverrelax_lintegral haar eps hb S h2 _ hF
  have e : ∀ z : SUN N × (ℕ → ℝ), atResult (fun Z => B.indicator (fun _ => (1 : ℝ≥0∞)) (maxAfter beta S Z z.1 (shiftBy (N - 1) z.2))) (rotSU eps S (shuffledIdx N z.2)) =
      {z : SUN N × (ℕ → ℝ) | ∃ V ∈ B, ∃ acc k, maxOverrelax eps beta z.1.1 S z.2 = some (V.1.1, acc, k) ∧ (fun i => z.2 (k + i)) = V.2}.indicator (fun _ => 1) z := by
    intro z
    have hz := (maxOverrelax_eq eps beta z.1 S z.2).1
    cases hr : rotSU eps S (shuffledIdx N z.2) with
    | none =>
      rw [Set.indicator_of_notMem]
      · rfl
      · rintro ⟨V, _, h⟩
        have := (hz V).1 h
        rw [hr] at this
        cases this
    | some Z =>
      rw [hr] at hz
      show B.indicator (fun _ => (1 : ℝ≥0∞)) (maxAfter beta S Z z.1 (shiftBy (N - 1) z.2)) = _
      by_cases hx : maxAfter beta S Z z.1 (shiftBy (N - 1) z.2) ∈ B
      · rw [Set.indicator_of_mem hx, Set.indicator_of_mem]
        exact ⟨_, hx, (hz _).2 rfl⟩
      · rw [Set.indicator_of_notMem hx, Set.indicator_of_notMem]
        rintro ⟨V, hV, h⟩
        have := (hz V).1 h
        have h4 : maxAfter beta S Z z.1 (shiftBy (N - 1) z.2) = V := Option.some.inj this
        exact hx (h4 ▸ hV)
  have hms : MeasurableSet {z : SUN N × (ℕ → ℝ) | ∃ V ∈ B, ∃ acc k, maxOverrelax eps beta z.1.1 S z.2 = some (V.1.1, acc, k) ∧ (fun i => z.2 (k + i)) = V.2} := by
    have h3 : {z : SUN N × (ℕ → ℝ) | ∃ V ∈ B, ∃ acc k, maxOverrelax eps beta z.1.1 S z.2 = some (V.1.1, acc, k) ∧ (fun i => z.2 (k + i)) = V.2} =
        (fun z : SUN N × (ℕ → ℝ) => atResult (fun Z => B.indicator (fun _ => (1 : ℝ≥0∞)) (maxAfter beta S Z z.1 (shiftBy (N - 1) z.2)))
          (rotSU eps S (shuffledIdx N z.2))) ⁻¹' {1} := by
      ext z
      rw [Set.mem_preimage, e, Set.mem_singleton_iff]
      by_cases hx : z ∈ {z : SUN N × (ℕ → ℝ) | ∃ V ∈ B, ∃ acc k, maxOverrelax eps beta z.1.1 S z.2 = some (V.1.1, acc, k) ∧ (fun i => z.2 (k + i)) = V.2}
      · rw [Set.indicator_of_mem hx]; simp only [hx]
      · rw [Set.indicator_of_notMem hx]
        exact ⟨fun h => absurd h hx, fun h => absurd h (by norm_num)⟩
    rw [h3]
    exact hm (measurableSet_singleton 1)
  simp only [e] at hI
  rw [lintegral_indicator hms, lintegral_indicator hB, setLIntegral_one, setLIntegral_one] at hI
  have e2 : {u | ∃ order Z, shuffledIdx N u = some order ∧ maxStapleRot eps order Sᴴ = some Z} = {u | ∃ Z, rotSU eps S (shuffledIdx N u) = some Z} := by
    ext u
    exact (maxOverrelax_eq eps beta 1 S u).2
  rw [e2]
  exact hI

/-- For the unit staple the rotation always has a result. -/
example [NeZero N] (eps : ℝ) : uniformStream {u | ∃ order Z, shuffledIdx N u = some order ∧ maxStapleRot eps order (1 : Mat N)ᴴ = some Z} = 1 := by
  rw [show (1 : ℝ≥0∞) = uniformStream Set.univ by rw [measure_univ]]
  refine measure_congr ?_
  have hae : ∀ᵐ u ∂uniformStream, ∀ k, 0 ≤ u k ∧ u k < 1 := by
    rw [ae_all_iff]
    intro k
    have h := (measurePreserving_eval_infinitePi (fun _ : ℕ => unif01) k).quasiMeasurePreserving.ae unif_ae
    exact h
  filter_upwards [hae] with u hu
  obtain ⟨o, h1, h2⟩ := (C98_order (N := N) u hu).1
  have h3 := C98_stationary eps o h2 (1 : Mat N) 0 Matrix.conjTranspose_one (by intro p q _; simp)
  simp only [Complex.ofReal_zero, zero_mul, zero_smul, add_zero] at h3
  rw [Matrix.conjTranspose_one]
  exact eq_true ⟨o, 1, h1, h3⟩

/-- **C98 (negative coupling).** For `β < 0` and three or more colors every proposal is accepted, whatever its weight: also a link that lowers the weight. -/
theorem C98_negative_beta [NeZero N] (eps : ℝ) {beta : ℝ} (hb : beta < 0) (hN : N ≠ 2) (U S : Mat N) (u : ℕ → ℝ) (hu : ∀ k, u k < 1) (V : Mat N) (acc used : ℕ)
    (h : maxOverrelax eps beta U S u = some (V, acc, used)) : acc = 1 := by
  unfold maxOverrelax at h
  obtain ⟨o, h1, h2⟩ := Option.bind_eq_some_iff.1 h
  obtain ⟨Z, h3, h4⟩ := Option.map_eq_some_iff.1 h2
  rw [if_neg hN] at h4
  dsimp only at h4
  generalize hd : ((Z * Uᴴ * Z - U) * Sᴴ).trace.re = ds at h4
  by_cases h0 : 0 < ds
  · rw [if_pos h0] at h4
    simp only [Prod.mk.injEq] at h4
    exact h4.2.1.symm
  · have hexp : 1 ≤ Real.exp (beta / N * ds) := by
      refine Real.one_le_exp ?_
      rw [not_lt] at h0
      exact mul_nonneg_of_nonpos_of_nonpos (div_nonpos_of_nonpos_of_nonneg hb.le (Nat.cast_nonneg N)) h0
    rw [if_neg h0, if_pos (lt_of_lt_of_le (hu _) hexp)] at h4
    simp only [Prod.mk.injEq] at h4
    exact h4.2.1.symm

/-! ### The overrelaxation with the singular values -/

/-- **C29 (SVD overrelaxation samples).** Under the conditions of `C29_dfj` the update keeps the distribution with weight `exp(β/N Re tr(U S†))`. -/
theorem C29_dfj_keeps (haar : Measure (SUN N)) [IsProbabilityMeasure haar] [haar.IsMulLeftInvariant] (S u v : Matrix (Fin N) (Fin N) ℂ) (D : Fin N → ℝ)
    (hu : u ∈ unitaryGroup (Fin N) ℂ) (hv : v ∈ unitaryGroup (Fin N) ℂ) (hD : ∀ i, 0 ≤ D i) (hS : S = u * Matrix.diagonal (fun i => (D i : ℂ)) * vᴴ) (hdet : S.det ≠ 0)
    (imin : Fin N) (theta : Fin N → ℝ) (beta : ℝ) :
    ∃ upd : SUN N × ℝ → SUN N, (∀ z, suNOverrelaxDFJ z.1.1 S u v imin theta beta z.2 = (upd z).1) ∧
      KeepsDistribution unif01 (boltzmann haar fun U => -(beta / N * (U.1 * Sᴴ).trace.re)) upd := by
  obtain ⟨Z, hZ, h⟩ := C29_dfj S u v D hu hv hD hS hdet imin theta
  let Z' : SUN N := ⟨Z, hZ⟩
  have hR : Measurable fun U : SUN N => Z' * U⁻¹ * Z' := (twist_preserving haar Z').measurable
  have hd : Measurable fun U : SUN N => Real.exp (beta / N * ((((Z' * U⁻¹ * Z').1 - U.1) * Sᴴ).trace.re)) := by
    have h := (continuous_subtype_val : Continuous fun h : SUN N => h.1)
    have h1 : Continuous fun U : SUN N => (Z' * U⁻¹ * Z').1 := h.comp ((continuous_const.mul continuous_inv).mul continuous_const)
    have h2 : Continuous fun U : SUN N => (((Z' * U⁻¹ * Z').1 - U.1) * Sᴴ).trace := ((h1.sub h).mul continuous_const).matrix_trace
    exact ((Complex.continuous_re.comp h2).measurable.const_mul _).exp
  have hm : Measurable fun z : SUN N × ℝ =>
      if z.2 < Real.exp (beta / N * ((((Z' * z.1⁻¹ * Z').1 - z.1.1) * Sᴴ).trace.re)) then Z' * z.1⁻¹ * Z' else z.1 :=
    Measurable.ite (measurableSet_lt measurable_snd (hd.comp measurable_fst)) (hR.comp measurable_fst) measurable_fst
  refine ⟨fun z => if z.2 < Real.exp (beta / N * ((((Z' * z.1⁻¹ * Z').1 - z.1.1) * Sᴴ).trace.re)) then Z' * z.1⁻¹ * Z' else z.1, fun z => ?_, hm, ?_⟩
  · rw [(h z.1.1 z.1.2 beta z.2).1]
    have e : (((Z' * z.1⁻¹ * Z').1 - z.1.1) * Sᴴ).trace.re = (Z * (z.1.1)ᴴ * Z * Sᴴ).trace.re - (z.1.1 * Sᴴ).trace.re := by
      rw [Matrix.sub_mul, Matrix.trace_sub, Complex.sub_re]
      rfl
    dsimp only
    rw [e]
    split
    · rfl
    · rfl
  · refine Measure.ext_of_lintegral _ fun f hf => ?_
    rw [lintegral_map hf hm]
    refine (lintegral_prod _ (hf.comp hm).aemeasurable).trans (Eq.trans ?_ (twist_keeps haar (beta / N) S Z' f hf))
    refine lintegral_congr fun U => lintegral_congr fun r => ?_
    dsimp only [Function.comp]
    split <;> rfl

/-! ### The end of the iteration -/

theorem maxIter_sweeps [NeZero N] (eps : ℝ) (pairs : List (Fin N × Fin N)) (k : ℕ) (s r : Mat N × Mat N)
    (h : maxIter eps pairs k s = some r) : ∃ (j : ℕ) (st : ℕ → Mat N × Mat N), st 0 = s ∧ st j = r ∧ j ≤ k ∧
      (∀ i < j, pairs.foldlM maxHit (st i) = some (st (i + 1))) ∧ (∀ i, 0 < i → i < j → ¬maxDone eps (st i).1) ∧
      (j = k ∨ 0 < j ∧ maxDone eps r.1) := by
  induction k generalizing s with
  | zero =>
    simp only [maxIter, Option.some.injEq] at h
    exact ⟨0, fun _ => s, rfl, h, le_refl _, fun i hi => by omega, fun i _ hi => by omega, Or.inl rfl⟩
  | succ k ih =>
    unfold maxIter at h
    obtain ⟨s', h1, h2⟩ := Option.bind_eq_some_iff.1 h
    by_cases hd : maxDone eps s'.1
    · rw [if_pos hd] at h2
      simp only [Option.some.injEq] at h2
      subst h2
      refine ⟨1, fun i => if i = 0 then s else s', rfl, rfl, by omega, fun i hi => ?_, fun i _ hi => by omega, Or.inr ⟨by omega, hd⟩⟩
      have : i = 0 := by omega
      subst this
      exact h1
    · rw [if_neg hd] at h2
      obtain ⟨j, st, a, b, c, d, e, f⟩ := ih s' h2
      refine ⟨j + 1, fun i => if i = 0 then s else st (i - 1), rfl, by simpa using b, by omega, fun i hi => ?_, fun i h0 hi => ?_, ?_⟩
      · rcases Nat.eq_zero_or_pos i with e0 | e0
        · subst e0
          simpa [a] using h1
        · have := d (i - 1) (by omega)
          rw [Nat.sub_add_cancel e0] at this
          simpa [Nat.ne_of_gt e0] using this
      · dsimp only
        rw [if_neg (by omega)]
        rcases Nat.eq_or_lt_of_le h0 with e0 | e0
        · rw [← e0]
          simpa [a] using hd
        · exact e (i - 1) (by omega) (by omega)
      · rcases f with f | f
        · exact Or.inl (by omega)
        · exact Or.inr ⟨by omega, f.2⟩

/-- **C98 (end of the iteration).** The rotation is the product of whole sweeps over the pairs. The iteration stops after the first sweep for which the distance
of `V S` from a Hermitian matrix plus an imaginary multiple of one (`C98_distance`) is below `eps (|diagonal| + N) N`, or after one sweep for two colors and
`15 (N - 1) N` sweeps for more. -/
theorem C98_stops [NeZero N] (eps : ℝ) (order : List (Fin N)) (ho : order.Perm (List.finRange N)) (S V : Mat N) (h : maxStapleRot eps order S = some V) :
    ∃ (j : ℕ) (st : ℕ → Mat N × Mat N), st 0 = (S, 1) ∧ st j = (V * S, V) ∧
      (∀ i < j, (orderPairs order).foldlM maxHit (st i) = some (st (i + 1))) ∧
      (∀ i, 0 < i → i < j → eps * (Real.sqrt (∑ t, Complex.normSq ((st i).1 t t)) + N) * N ≤ Real.sqrt (maxNorms (st i).1).2) ∧
      (j = (if N = 2 then 1 else 15 * (N - 1) * N) ∨
        0 < j ∧ Real.sqrt (maxNorms (V * S)).2 < eps * (Real.sqrt (∑ t, Complex.normSq ((V * S) t t)) + N) * N) ∧
      j ≤ (if N = 2 then 1 else 15 * (N - 1) * N) := by
  unfold maxStapleRot at h
  obtain ⟨r, h1, h2⟩ := Option.map_eq_some_iff.1 h
  obtain ⟨j, st, a, b, c, d, e, f⟩ := maxIter_sweeps eps _ _ _ _ h1
  have hinv : r.1 = V * S := by
    have h0 : MaxInv S (S, (1 : Mat N)) := ⟨one_mem _, (Matrix.one_mul S).symm, le_refl _⟩
    rw [← h2]
    exact (maxIter_inv eps S _ (orderPairs_ne order (perm_nodup ho)) _ _ _ h0 h1).1.2.1
  have hr : r = (V * S, V) := by rw [← hinv, ← h2]
  refine ⟨j, st, a, b.trans hr, d, fun i h0 hi => not_lt.1 (e i h0 hi), ?_, c⟩
  rw [← hinv]
  exact f

example : ∃ V, maxStapleRot (N := 3) 0 [2, 0, 1] (Matrix.diagonal ![2, 1, 1] + (((4 : ℝ) : ℂ) * Complex.I) • (1 : Mat 3)) = some V ∧
    ([2, 0, 1] : List (Fin 3)).Perm (List.finRange 3) := by
  refine ⟨1, ?_, by decide⟩
  refine C98_stationary 0 _ (by decide) _ 4 ?_ ?_
  · rw [Matrix.diagonal_conjTranspose]
    congr 1
    funext i
    fin_cases i <;> simp
  · intro p q _
    fin_cases p <;> fin_cases q <;> simp <;> norm_num

end Hila
