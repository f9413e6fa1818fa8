import Verif.Model.ChExp
import Verif.Lemmas.NewtonTrace
import Mathlib.Data.Fin.Tuple.Reflection
import Mathlib.Algebra.BigOperators.Fin
import Mathlib.Tactic.Ring
import Mathlib.Tactic.LinearCombination
import Mathlib.Tactic.FieldSimp

/-!
# Lemmas on the Cayley-Hamilton iteration

Coefficient vectors `v` stand for `Σ v_i X^i` modulo the polynomial `X^n + Σ c_i X^i`.
-/

namespace Hila

variable {𝕜 : Type} [RCLike 𝕜] {k : ℕ}

/-! ### Loops -/

theorem one_le_val {i : Fin (k + 1)} (h : i ≠ 0) : 1 ≤ i.val :=
  Nat.one_le_iff_ne_zero.2 fun h0 => h (Fin.ext h0)

theorem forUp_inv {S : Type} {n lo : ℕ} {f : Fin n → S → S} {s : S} (P : ℕ → S → Prop) (hlo : lo ≤ n) (h0 : P lo s)
    (hs : ∀ i (hi : i < n), lo ≤ i → ∀ s, P i s → P (i + 1) (f ⟨i, hi⟩ s)) : P n (forUp n lo f s) := by
  obtain ⟨r, hr⟩ : ∃ r, n - lo = r := ⟨_, rfl⟩
  unfold forUp
  induction r generalizing lo s with
  | zero =>
    have : lo = n := by omega
    subst this
    rw [List.drop_eq_nil_of_le (by simp)]
    exact h0
  | succ r ih =>
    have hlt : lo < n := by omega
    rw [List.drop_eq_getElem_cons (by simpa using hlt)]
    simp only [List.getElem_finRange, List.foldl_cons, Fin.cast_mk]
    exact ih (by omega) (hs lo hlt le_rfl _ h0) (fun i hi hl s => hs i hi (by omega) s) (by omega)

theorem forDn_inv {S : Type} {n lo : ℕ} {f : Fin n → S → S} {s : S} (P : ℕ → S → Prop) (hlo : lo ≤ n) (h0 : P n s)
    (hs : ∀ i (hi : i < n), lo ≤ i → ∀ s, P (i + 1) s → P i (f ⟨i, hi⟩ s)) : P lo (forDn n lo f s) := by
  obtain ⟨r, hr⟩ : ∃ r, n - lo = r := ⟨_, rfl⟩
  unfold forDn
  induction r generalizing lo with
  | zero =>
    have : lo = n := by omega
    subst this
    rw [List.drop_eq_nil_of_le (by simp)]
    exact h0
  | succ r ih =>
    have hlt : lo < n := by omega
    rw [List.drop_eq_getElem_cons (by simpa using hlt)]
    simp only [List.getElem_finRange, List.foldr_cons, Fin.cast_mk]
    exact hs lo hlt le_rfl _ (ih (by omega) (fun i hi hl s => hs i hi (by omega) s) (by omega))

theorem setE_sq_apply (a : SqMat 𝕜 k) (i j : Fin (k + 1)) (v : 𝕜) (p q : Fin (k + 1)) :
    setE a i j v p q = if p = i ∧ q = j then v else a p q := by
  unfold setE
  by_cases hp : p = i
  · subst hp
    by_cases hq : q = j
    · subst hq; simp
    · simp [hq]
  · simp [hp, Matrix.updateRow_ne]

/-- A sum that is accumulated from index `lo`. -/
theorem forUp_sum {M : Type} [AddCommMonoid M] {n lo : ℕ} (hlo : lo ≤ n) (g : Fin n → M) (s : M) :
    forUp n lo (fun i o => g i + o) s = s + ∑ i : Fin n, if lo ≤ i.val then g i else 0 := by
  have := forUp_inv (f := fun i o => g i + o) (s := s)
    (fun m o => o = s + ∑ i : Fin n, if lo ≤ i.val ∧ i.val < m then g i else 0) hlo ?_ ?_
  · rw [this]
    refine congrArg _ (Finset.sum_congr rfl fun i _ => ?_)
    simp [i.isLt]
  · rw [Finset.sum_eq_zero, add_zero]
    intro i _
    rw [if_neg (by omega)]
  · intro i hi hl o ho
    show g ⟨i, hi⟩ + o = _
    rw [ho, add_left_comm]
    congr 1
    rw [← Finset.add_sum_erase _ _ (Finset.mem_univ (⟨i, hi⟩ : Fin n)),
      ← Finset.add_sum_erase _ (fun j : Fin n => if lo ≤ j.val ∧ j.val < i + 1 then g j else 0) (Finset.mem_univ (⟨i, hi⟩ : Fin n))]
    rw [if_neg (by simp), if_pos (by simpa using hl), zero_add]
    congr 1
    refine Finset.sum_congr rfl fun j hj => ?_
    have : j.val ≠ i := fun h => (Finset.ne_of_mem_erase hj) (Fin.ext h)
    by_cases h1 : lo ≤ j.val ∧ j.val < i
    · rw [if_pos h1, if_pos (by omega)]
    · rw [if_neg h1, if_neg (by omega)]

/-! ### Multiplication by `X` -/

/-- `X v` modulo the polynomial. -/
def mulX (c : Fin (k + 2) → 𝕜) (v : Coef 𝕜 k) : Coef 𝕜 k := fun i =>
  (if i = 0 then 0 else v (prv i)) - v (Fin.last k) * c i.castSucc

theorem mulX_smul (c : Fin (k + 2) → 𝕜) (a : 𝕜) (v : Coef 𝕜 k) (i : Fin (k + 1)) :
    mulX c (fun i => a * v i) i = a * mulX c v i := by
  unfold mulX
  split_ifs <;> ring

theorem chRow_eq (c : Fin (k + 2) → 𝕜) (wpf rs : ℝ) (pal al : Coef 𝕜 k) :
    chRow c wpf rs pal al = (fun i => (rs : 𝕜) * mulX c pal i, fun i => al i + (wpf : 𝕜) * ((rs : 𝕜) * mulX c pal i),
      ∑ i, ‖(rs : 𝕜) * mulX c pal i‖ ^ 2) := by
  unfold chRow
  dsimp only
  have hnew : ∀ i : Fin (k + 1), i ≠ 0 →
      (rs : 𝕜) * mulX c pal i = pal (prv i) * (rs : 𝕜) - pal (Fin.last k) * (rs : 𝕜) * c i.castSucc := by
    intro i hi
    unfold mulX
    rw [if_neg hi]; ring
  have hnew0 : (rs : 𝕜) * mulX c pal 0 = -(pal (Fin.last k) * (rs : 𝕜)) * c 0 := by
    unfold mulX
    rw [if_pos rfl, Fin.castSucc_zero]; ring
  have key := forDn_inv (f := fun i (t : Coef 𝕜 k × Coef 𝕜 k × ℝ) =>
      (Function.update t.1 i (t.1 (prv i) * (rs : 𝕜) - pal (Fin.last k) * (rs : 𝕜) * c i.castSucc),
       Function.update t.2.1 i (t.2.1 i + (wpf : 𝕜) * (t.1 (prv i) * (rs : 𝕜) - pal (Fin.last k) * (rs : 𝕜) * c i.castSucc)),
       t.2.2 + ‖t.1 (prv i) * (rs : 𝕜) - pal (Fin.last k) * (rs : 𝕜) * c i.castSucc‖ ^ 2)) (s := (pal, al, 0))
    (fun m t => (∀ i, t.1 i = if m ≤ i.val then (rs : 𝕜) * mulX c pal i else pal i) ∧
      (∀ i, t.2.1 i = if m ≤ i.val then al i + (wpf : 𝕜) * ((rs : 𝕜) * mulX c pal i) else al i) ∧
      t.2.2 = ∑ i : Fin (k + 1), if m ≤ i.val then ‖(rs : 𝕜) * mulX c pal i‖ ^ 2 else 0) (lo := 1) (by omega) ?_ ?_
  · obtain ⟨h1, h2, h3⟩ := key
    refine Prod.ext ?_ (Prod.ext ?_ ?_)
    · funext i
      dsimp only
      by_cases hi : i = 0
      · subst hi; rw [Function.update_self, hnew0]
      · rw [Function.update_of_ne hi, h1, if_pos (one_le_val hi)]
    · funext i
      dsimp only
      by_cases hi : i = 0
      · subst hi; rw [Function.update_self, hnew0, h2, if_neg (by simp)]
      · rw [Function.update_of_ne hi, h2, if_pos (one_le_val hi)]
    · dsimp only
      rw [h3, ← hnew0, Fin.sum_univ_succ, Fin.sum_univ_succ (fun i => ‖(rs : 𝕜) * mulX c pal i‖ ^ 2)]
      simp [add_comm]
  · refine ⟨fun i => by rw [if_neg (by omega)], fun i => by rw [if_neg (by omega)], ?_⟩
    rw [Finset.sum_eq_zero]
    intro i _
    rw [if_neg (by omega)]
  · rintro m hm hl ⟨p, a, s⟩ ⟨h1, h2, h3⟩
    dsimp only at h1 h2 h3 ⊢
    have hv : p (prv ⟨m, hm⟩) * (rs : 𝕜) - pal (Fin.last k) * (rs : 𝕜) * c (Fin.castSucc ⟨m, hm⟩) =
        (rs : 𝕜) * mulX c pal ⟨m, hm⟩ := by
      rw [hnew _ (by rw [Ne, Fin.ext_iff]; simp; omega), h1, if_neg (by simp only [prv]; omega)]
    rw [hv]
    refine ⟨fun i => ?_, fun i => ?_, ?_⟩
    · by_cases hi : i = ⟨m, hm⟩
      · subst hi; rw [Function.update_self, if_pos (by simp)]
      · rw [Function.update_of_ne hi, h1]
        have : i.val ≠ m := fun h => hi (Fin.ext h)
        split_ifs <;> first | rfl | (exfalso; omega)
    · by_cases hi : i = ⟨m, hm⟩
      · subst hi; rw [Function.update_self, if_pos (by simp), h2, if_neg (by simp)]
      · rw [Function.update_of_ne hi, h2]
        have : i.val ≠ m := fun h => hi (Fin.ext h)
        split_ifs <;> first | rfl | (exfalso; omega)
    · rw [h3, ← Finset.add_sum_erase _ _ (Finset.mem_univ (⟨m, hm⟩ : Fin (k + 1))),
        ← Finset.add_sum_erase _ (fun j : Fin (k + 1) => if m ≤ j.val then ‖(rs : 𝕜) * mulX c pal j‖ ^ 2 else 0) (Finset.mem_univ (⟨m, hm⟩ : Fin (k + 1)))]
      rw [if_neg (by simp), if_pos (by simp), zero_add, add_comm]
      congr 1
      refine Finset.sum_congr rfl fun j hj => ?_
      have : j.val ≠ m := fun h => (Finset.ne_of_mem_erase hj) (Fin.ext h)
      split_ifs <;> first | rfl | (exfalso; omega)

theorem sqRow_eq (c : Fin (k + 2) → 𝕜) (w : 𝕜) (pal al : Coef 𝕜 k) :
    sqRow c w pal al = (mulX c pal, fun i => al i + w * mulX c pal i) := by
  unfold sqRow
  dsimp only
  have hnew : ∀ i : Fin (k + 1), i ≠ 0 → mulX c pal i = pal (prv i) - pal (Fin.last k) * c i.castSucc := by
    intro i hi
    unfold mulX
    rw [if_neg hi]
  have hnew0 : mulX c pal 0 = -(pal (Fin.last k)) * c 0 := by
    unfold mulX
    rw [if_pos rfl, Fin.castSucc_zero]; ring
  have key := forDn_inv (f := fun i (t : Coef 𝕜 k × Coef 𝕜 k) =>
      (Function.update t.1 i (t.1 (prv i) - pal (Fin.last k) * c i.castSucc),
       Function.update t.2 i (t.2 i + w * (t.1 (prv i) - pal (Fin.last k) * c i.castSucc)))) (s := (pal, al))
    (fun m t => (∀ i, t.1 i = if m ≤ i.val then mulX c pal i else pal i) ∧
      (∀ i, t.2 i = if m ≤ i.val then al i + w * mulX c pal i else al i)) (lo := 1) (by omega) ?_ ?_
  · obtain ⟨h1, h2⟩ := key
    refine Prod.ext ?_ ?_
    · funext i
      dsimp only
      by_cases hi : i = 0
      · subst hi; rw [Function.update_self, hnew0]
      · rw [Function.update_of_ne hi, h1, if_pos (one_le_val hi)]
    · funext i
      dsimp only
      by_cases hi : i = 0
      · subst hi; rw [Function.update_self, hnew0, h2, if_neg (by simp)]
      · rw [Function.update_of_ne hi, h2, if_pos (one_le_val hi)]
  · exact ⟨fun i => by rw [if_neg (by omega)], fun i => by rw [if_neg (by omega)]⟩
  · rintro m hm hl ⟨p, a⟩ ⟨h1, h2⟩
    dsimp only at h1 h2 ⊢
    have hv : p (prv ⟨m, hm⟩) - pal (Fin.last k) * c (Fin.castSucc ⟨m, hm⟩) = mulX c pal ⟨m, hm⟩ := by
      rw [hnew _ (by rw [Ne, Fin.ext_iff]; simp; omega), h1, if_neg (by simp only [prv]; omega)]
    rw [hv]
    refine ⟨fun i => ?_, fun i => ?_⟩
    · by_cases hi : i = ⟨m, hm⟩
      · subst hi; rw [Function.update_self, if_pos (by simp)]
      · rw [Function.update_of_ne hi, h1]
        have : i.val ≠ m := fun h => hi (Fin.ext h)
        split_ifs <;> first | rfl | (exfalso; omega)
    · by_cases hi : i = ⟨m, hm⟩
      · subst hi; rw [Function.update_self, if_pos (by simp), h2, if_neg (by simp)]
      · rw [Function.update_of_ne hi, h2]
        have : i.val ≠ m := fun h => hi (Fin.ext h)
        split_ifs <;> first | rfl | (exfalso; omega)

theorem chSquare_eq (c : Fin (k + 2) → 𝕜) (al : Coef 𝕜 k) (i : Fin (k + 1)) :
    chSquare c al i = ∑ l : Fin (k + 1), al l * (mulX c)^[l.val] al i := by
  unfold chSquare
  have key := forUp_inv (f := fun j (t : Coef 𝕜 k × Coef 𝕜 k) => sqRow c (al j) t.1 t.2) (s := (al, fun i => al i * al 0))
    (fun m t => t.1 = (mulX c)^[m - 1] al ∧ ∀ i, t.2 i = ∑ l : Fin (k + 1), if l.val < m then al l * (mulX c)^[l.val] al i else 0)
    (lo := 1) (by omega) ?_ ?_
  · rw [key.2]
    exact Finset.sum_congr rfl fun l _ => by rw [if_pos l.isLt]
  · refine ⟨rfl, fun i => ?_⟩
    rw [Finset.sum_eq_single 0]
    · simp [mul_comm]
    · intro l _ hl
      rw [if_neg (by have := one_le_val hl; omega)]
    · simp
  · rintro m hm hl ⟨p, a⟩ ⟨h1, h2⟩
    dsimp only at h1 h2 ⊢
    rw [sqRow_eq]
    dsimp only
    have h3 : mulX c p = (mulX c)^[m] al := by
      rw [h1, ← Function.iterate_succ_apply' (f := mulX c), show (m - 1).succ = m by omega]
    refine ⟨by rw [h3]; rfl, fun i => ?_⟩
    rw [h2, h3, ← Finset.add_sum_erase _ _ (Finset.mem_univ (⟨m, hm⟩ : Fin (k + 1))),
        ← Finset.add_sum_erase _ (fun l : Fin (k + 1) => if l.val < m + 1 then al l * (mulX c)^[l.val] al i else 0) (Finset.mem_univ (⟨m, hm⟩ : Fin (k + 1)))]
    rw [if_neg (by simp), if_pos (by simp), zero_add, add_comm]
    congr 1
    refine Finset.sum_congr rfl fun j hj => ?_
    have : j.val ≠ m := fun h => (Finset.ne_of_mem_erase hj) (Fin.ext h)
    split_ifs <;> first | rfl | (exfalso; omega)

/-! ### Evaluation at a matrix -/

/-- `Σ v_i B^i`. -/
def evC (B : SqMat 𝕜 k) (v : Coef 𝕜 k) : SqMat 𝕜 k := ∑ i : Fin (k + 1), v i • B ^ i.val

/-- `c` are the coefficients of the characteristic polynomial of `B`. -/
def IsCharpoly (c : Fin (k + 2) → 𝕜) (B : SqMat 𝕜 k) : Prop := ∀ i, c i = B.charpoly.coeff i.val

theorem charpoly_power (c : Fin (k + 2) → 𝕜) (B : SqMat 𝕜 k) (h : IsCharpoly c B) :
    B ^ (k + 1) = -∑ i : Fin (k + 1), c i.castSucc • B ^ i.val := by
  have h1 := Matrix.aeval_self_charpoly B
  rw [Polynomial.aeval_eq_sum_range, Matrix.charpoly_natDegree_eq_dim, Fintype.card_fin, Finset.sum_range,
    Fin.sum_univ_castSucc] at h1
  have h2 : B.charpoly.coeff (k + 1) = 1 := by
    have := Matrix.charpoly_monic B
    rw [Polynomial.Monic, Polynomial.leadingCoeff, Matrix.charpoly_natDegree_eq_dim, Fintype.card_fin] at this
    exact this
  simp only [Fin.val_last, h2, one_smul, Fin.val_castSucc] at h1
  rw [eq_neg_iff_add_eq_zero, add_comm, ← h1]
  congr 1
  exact Finset.sum_congr rfl fun i _ => by rw [h]; rfl

theorem evC_mulX (c : Fin (k + 2) → 𝕜) (B : SqMat 𝕜 k) (h : IsCharpoly c B) (v : Coef 𝕜 k) :
    evC B (mulX c v) = B * evC B v := by
  unfold evC mulX
  simp only [sub_smul, Finset.sum_sub_distrib]
  rw [Fin.sum_univ_succ, Finset.mul_sum, Fin.sum_univ_castSucc (fun i : Fin (k + 1) => B * v i • B ^ i.val)]
  simp only [↓reduceIte, zero_smul, zero_add, Fin.succ_ne_zero]
  have h1 : ∀ i : Fin k, v (prv i.succ) • B ^ i.succ.val = B * v i.castSucc • B ^ i.castSucc.val := by
    intro i
    have : prv i.succ = i.castSucc := Fin.ext (by simp [prv])
    rw [this, Fin.val_succ, pow_succ', mul_smul_comm, Fin.val_castSucc]
  rw [Finset.sum_congr rfl fun i _ => h1 i]
  rw [Fin.val_last, mul_smul_comm, ← pow_succ', charpoly_power c B h, sub_eq_add_neg]
  congr 1
  rw [smul_neg, Finset.smul_sum]
  congr 1
  exact Finset.sum_congr rfl fun i _ => by rw [mul_smul]

theorem evC_iterate (c : Fin (k + 2) → 𝕜) (B : SqMat 𝕜 k) (h : IsCharpoly c B) (v : Coef 𝕜 k) (m : ℕ) :
    evC B ((mulX c)^[m] v) = B ^ m * evC B v := by
  induction m with
  | zero => simp
  | succ m ih => rw [Function.iterate_succ_apply', evC_mulX c B h, ih, pow_succ', mul_assoc]

theorem evC_add (B : SqMat 𝕜 k) (v w : Coef 𝕜 k) : evC B (fun i => v i + w i) = evC B v + evC B w := by
  unfold evC
  simp only [add_smul, Finset.sum_add_distrib]

theorem evC_smul (B : SqMat 𝕜 k) (a : 𝕜) (v : Coef 𝕜 k) : evC B (fun i => a * v i) = a • evC B v := by
  unfold evC
  simp only [mul_smul, Finset.smul_sum]

theorem evC_sum {ι : Type} (s : Finset ι) (B : SqMat 𝕜 k) (v : ι → Coef 𝕜 k) :
    evC B (fun i => ∑ l ∈ s, v l i) = ∑ l ∈ s, evC B (v l) := by
  unfold evC
  simp only [Finset.sum_smul]
  rw [Finset.sum_comm]

theorem evC_square (c : Fin (k + 2) → 𝕜) (B : SqMat 𝕜 k) (h : IsCharpoly c B) (al : Coef 𝕜 k) :
    evC B (chSquare c al) = evC B al * evC B al := by
  have : chSquare c al = fun i => ∑ l : Fin (k + 1), al l * (mulX c)^[l.val] al i := funext fun i => chSquare_eq c al i
  rw [this, evC_sum]
  simp only [evC_smul, evC_iterate c B h]
  conv_rhs => arg 1; rw [evC]
  rw [Finset.sum_mul]
  exact Finset.sum_congr rfl fun l _ => by rw [smul_mul_assoc]

theorem evC_squares (c : Fin (k + 2) → 𝕜) (B : SqMat 𝕜 k) (h : IsCharpoly c B) (al : Coef 𝕜 k) (r : ℕ) :
    evC B ((chSquare c)^[r] al) = evC B al ^ 2 ^ r := by
  induction r with
  | zero => simp
  | succ r ih => rw [Function.iterate_succ_apply', evC_square c B h, ih, ← pow_add]; congr 1; ring

/-! ### Powers, traces and characteristic polynomial -/

theorem chPowers_eq (h : 1 < k + 1) (junk : Fin (k + 1) → SqMat 𝕜 k) (B : SqMat 𝕜 k) :
    ∃ pl, chPowers junk B = some pl ∧ ∀ i : Fin (k + 1), 1 ≤ i.val → pl i = B ^ i.val := by
  unfold chPowers
  rw [dif_pos h]
  refine ⟨_, rfl, ?_⟩
  have key := forUp_inv (n := k + 1) (lo := 2) (f := fun i (pl : Fin (k + 1) → SqMat 𝕜 k) =>
      Function.update pl i (pl ⟨i.val / 2, by omega⟩ * pl ⟨i.val / 2 + i.val % 2, by omega⟩))
    (s := Function.update junk ⟨1, h⟩ B) (fun m pl => ∀ i : Fin (k + 1), 1 ≤ i.val → i.val < m → pl i = B ^ i.val) (by omega) ?_ ?_
  · intro i hi
    exact key i hi i.isLt
  · intro i h1 h2
    have : i = ⟨1, h⟩ := Fin.ext (by simp; omega)
    subst this
    rw [Function.update_self]; simp
  · intro m hm hl pl hpl i h1 h2
    by_cases hi : i = ⟨m, hm⟩
    · subst hi
      rw [Function.update_self, hpl _ (by simp; omega) (by simp; omega), hpl _ (by simp; omega) (by simp; omega), ← pow_add]
      congr 1
      simp; omega
    · rw [Function.update_of_ne hi]
      have : i.val ≠ m := fun h => hi (Fin.ext h)
      exact hpl i h1 (by omega)

theorem chTraces_eq (h : 1 < k + 1) (pl : Fin (k + 1) → SqMat 𝕜 k) (B : SqMat 𝕜 k)
    (hpl : ∀ i : Fin (k + 1), 1 ≤ i.val → pl i = B ^ i.val) (i : Fin (k + 2)) (hi : 1 ≤ i.val) :
    chTraces h pl i = (B ^ i.val).trace := by
  unfold chTraces
  by_cases h1 : i.val < k + 1
  · rw [dif_pos h1, if_neg (by omega), hpl _ hi]
  · rw [dif_neg h1, hpl _ (by simp; omega), hpl _ (by simp; omega), ← pow_add]
    congr 2
    simp; omega

theorem chNewton_eq (tr : Fin (k + 2) → 𝕜) (B : SqMat 𝕜 k) (htr : ∀ i : Fin (k + 2), 1 ≤ i.val → tr i = (B ^ i.val).trace) :
    IsCharpoly (chNewton tr) B := by
  have htop : B.charpoly.coeff (k + 1) = 1 := by
    have := Matrix.charpoly_monic B
    rw [Polynomial.Monic, Polynomial.leadingCoeff, Matrix.charpoly_natDegree_eq_dim, Fintype.card_fin] at this
    exact this
  unfold chNewton
  have key := forUp_inv (n := k + 2) (lo := 1) (f := fun j (c : Fin (k + 2) → 𝕜) => Function.update c ⟨k + 1 - j.val, by omega⟩
    (forUp j.val 1 (fun i x => x - c ⟨k + 1 - (j.val - i.val), by omega⟩ * tr ⟨i.val, by omega⟩) (-tr j) / (j.val : 𝕜)))
    (s := Function.update 0 (Fin.last (k + 1)) 1)
    (fun m c => ∀ i : Fin (k + 2), k + 2 - m ≤ i.val → c i = B.charpoly.coeff i.val) (by omega) ?_ ?_
  · intro i
    exact key i (by omega)
  · intro i hi
    have : i = Fin.last (k + 1) := Fin.ext (by simp; omega)
    subst this
    rw [Function.update_self, Fin.val_last, htop]
  · intro m hm hl c hc i hi
    dsimp only
    by_cases h1 : i = ⟨k + 1 - m, by omega⟩
    · rw [h1]
      rw [Function.update_self]
      have hsum : forUp m 1 (fun i x => x - c ⟨k + 1 - (m - i.val), by omega⟩ * tr ⟨i.val, by omega⟩) (-tr ⟨m, hm⟩) =
          -tr ⟨m, hm⟩ + ∑ i : Fin m, if 1 ≤ i.val then -(c ⟨k + 1 - (m - i.val), by omega⟩ * tr ⟨i.val, by omega⟩) else 0 := by
        rw [← forUp_sum hl]
        refine congrArg (fun f => forUp m 1 f (-tr ⟨m, hm⟩)) ?_
        funext i x
        ring
      have hm0 : (m : 𝕜) ≠ 0 := Nat.cast_ne_zero.2 (by omega)
      rw [hsum, div_eq_iff hm0]
      have hN := newton_trace B m (by rw [Fintype.card_fin]; omega)
      rw [Fintype.card_fin] at hN
      have hIcc : ∑ i ∈ Finset.Icc 1 m, B.charpoly.coeff (k + 1 - m + i) * (B ^ i).trace =
          (B ^ m).trace + ∑ i : Fin m, if 1 ≤ i.val then B.charpoly.coeff (k + 1 - m + i.val) * (B ^ i.val).trace else 0 := by
        rw [Fin.sum_univ_eq_sum_range (fun i => if 1 ≤ i then B.charpoly.coeff (k + 1 - m + i) * (B ^ i).trace else 0) m,
          ← Finset.sum_filter]
        have : Finset.Icc 1 m = insert m ((Finset.range m).filter (1 ≤ ·)) := by
          ext x; simp; omega
        rw [this, Finset.sum_insert (by simp), show k + 1 - m + m = k + 1 by omega, htop, one_mul]
      rw [hIcc] at hN
      have hneg : ∑ i : Fin m, (if 1 ≤ i.val then -(c ⟨k + 1 - (m - i.val), by omega⟩ * tr ⟨i.val, by omega⟩) else 0) =
          -∑ i : Fin m, if 1 ≤ i.val then B.charpoly.coeff (k + 1 - m + i.val) * (B ^ i.val).trace else 0 := by
        rw [← Finset.sum_neg_distrib]
        refine Finset.sum_congr rfl fun i _ => ?_
        by_cases h1 : 1 ≤ i.val
        · rw [if_pos h1, if_pos h1, hc _ (by simp; omega), htr _ h1]
          dsimp only
          rw [show k + 1 - (m - i.val) = k + 1 - m + i.val by omega]
        · rw [if_neg h1, if_neg h1, neg_zero]
      rw [hneg, htr _ hl]
      dsimp only
      linear_combination hN
    · rw [Function.update_of_ne h1]
      have : i.val ≠ k + 1 - m := fun h => h1 (Fin.ext h)
      exact hc i (by omega)

theorem chPoly_eq (h : 1 < k + 1) (pl : Fin (k + 1) → SqMat 𝕜 k) (B : SqMat 𝕜 k)
    (hpl : ∀ i : Fin (k + 1), 1 ≤ i.val → pl i = B ^ i.val) : IsCharpoly (chPoly h pl) B :=
  chNewton_eq _ B fun i hi => chTraces_eq h pl B hpl i hi

theorem chOut_eq (al : Coef 𝕜 k) (pl : Fin (k + 1) → SqMat 𝕜 k) (B : SqMat 𝕜 k)
    (hpl : ∀ i : Fin (k + 1), 1 ≤ i.val → pl i = B ^ i.val) : chOut al pl = evC B al := by
  unfold chOut evC
  rw [forUp_sum (by omega), ← Finset.add_sum_erase _ _ (Finset.mem_univ (0 : Fin (k + 1))),
    ← Finset.add_sum_erase _ (fun i : Fin (k + 1) => al i • B ^ i.val) (Finset.mem_univ (0 : Fin (k + 1)))]
  rw [if_neg (by simp), zero_add]
  congr 1
  · simp [← Matrix.smul_one_eq_diagonal]
  · refine Finset.sum_congr rfl fun i hi => ?_
    rw [if_pos (one_le_val (Finset.ne_of_mem_erase hi)), hpl i (one_le_val (Finset.ne_of_mem_erase hi))]

end Hila
