import Verif.Lemmas.ChExpErr
import Mathlib.Analysis.Calculus.Deriv.Mul
import Mathlib.Analysis.Calculus.Deriv.Add
import Mathlib.Analysis.Calculus.Deriv.Pow

/-!
# Lemmas on the derivative of the Cayley-Hamilton exponential

A matrix `M` of coefficients stands for the linear map `Z ↦ Σ M_ij B^i Z B^j`.
-/

namespace Hila

open scoped Nat

variable {𝕜 : Type} [RCLike 𝕜] {k : ℕ}

/-- The symmetric matrix with the upper triangle of `M`. -/
def symU (M : SqMat 𝕜 k) : SqMat 𝕜 k := Matrix.of fun i j => if i ≤ j then M i j else M j i

/-- `Σ M_ij B^i Z B^j`. -/
def evK (B M Z : SqMat 𝕜 k) : SqMat 𝕜 k := ∑ i : Fin (k + 1), ∑ j : Fin (k + 1), M i j • (B ^ i.val * Z * B ^ j.val)

theorem symU_upper (M : SqMat 𝕜 k) {i j : Fin (k + 1)} (h : i ≤ j) : symU M i j = M i j := by
  unfold symU; rw [Matrix.of_apply, if_pos h]

theorem symU_comm (M : SqMat 𝕜 k) (i j : Fin (k + 1)) : symU M i j = symU M j i := by
  unfold symU
  rw [Matrix.of_apply, Matrix.of_apply]
  rcases lt_trichotomy i j with h | h | h
  · rw [if_pos h.le, if_neg (not_le.2 h)]
  · subst h; rfl
  · rw [if_neg (not_le.2 h), if_pos h.le]

/-- A matrix whose upper triangle agrees with a symmetric function. -/
theorem symU_eq (M : SqMat 𝕜 k) (g : Fin (k + 1) → Fin (k + 1) → 𝕜) (hg : ∀ i j, g i j = g j i) (h : ∀ i j, i ≤ j → M i j = g i j) :
    symU M = Matrix.of g := by
  ext i j
  unfold symU
  rw [Matrix.of_apply, Matrix.of_apply]
  by_cases hij : i ≤ j
  · rw [if_pos hij, h i j hij]
  · rw [if_neg hij, h j i (le_of_lt (not_le.1 hij)), hg]

/-! ### Coefficients of the derivative of `X^m` -/

/-- `Σ_{a+b=m-1} X^a ⊗ X^b`. -/
def sMat (c : Fin (k + 2) → 𝕜) (m : ℕ) (i j : Fin (k + 1)) : 𝕜 := ∑ a ∈ Finset.range m, vpow c a i * vpow c (m - 1 - a) j

theorem sMat_comm (c : Fin (k + 2) → 𝕜) (m : ℕ) (i j : Fin (k + 1)) : sMat c m i j = sMat c m j i := by
  unfold sMat
  rw [← Finset.sum_range_reflect]
  refine Finset.sum_congr rfl fun a ha => ?_
  have := Finset.mem_range.1 ha
  rw [mul_comm, show m - 1 - (m - 1 - a) = a by omega]

theorem vpow_zero_apply (c : Fin (k + 2) → 𝕜) (j : Fin (k + 1)) : vpow c 0 j = if j = 0 then 1 else 0 := by
  show (Pi.single 0 1 : Coef 𝕜 k) j = _
  rw [Pi.single_apply]

theorem sMat_succ (c : Fin (k + 2) → 𝕜) (m : ℕ) (i j : Fin (k + 1)) :
    sMat c (m + 1) i j = (if j = 0 then vpow c m i else sMat c m i (prv j)) - sMat c m i (Fin.last k) * c j.castSucc := by
  unfold sMat
  rw [Finset.sum_range_succ, show m + 1 - 1 - m = 0 by omega, vpow_zero_apply, Finset.sum_mul]
  have h1 : ∀ a ∈ Finset.range m, vpow c a i * vpow c (m + 1 - 1 - a) j =
      (if j = 0 then 0 else vpow c a i * vpow c (m - 1 - a) (prv j)) - vpow c a i * vpow c (m - 1 - a) (Fin.last k) * c j.castSucc := by
    intro a ha
    have := Finset.mem_range.1 ha
    rw [show m + 1 - 1 - a = (m - 1 - a) + 1 by omega, vpow_succ]
    unfold mulX
    split_ifs <;> ring
  rw [Finset.sum_congr rfl h1, Finset.sum_sub_distrib]
  split_ifs
  · rw [Finset.sum_const_zero]; ring
  · rw [mul_zero, add_zero]

theorem sMat_low (c : Fin (k + 2) → 𝕜) (m : ℕ) (hm : m ≤ k + 1) (i j : Fin (k + 1)) :
    sMat c m i j = if i.val + j.val + 1 = m then 1 else 0 := by
  unfold sMat
  by_cases h : i.val + j.val + 1 = m
  · rw [if_pos h, Finset.sum_eq_single i.val]
    · rw [vpow_low c i.val i.isLt, show m - 1 - i.val = j.val by omega, vpow_low c j.val j.isLt]
      simp
    · intro a ha hai
      have := Finset.mem_range.1 ha
      rw [vpow_low c a (by omega), Pi.single_eq_of_ne (by rw [Ne, Fin.ext_iff]; exact fun h => hai h.symm), zero_mul]
    · intro hi
      exact absurd (Finset.mem_range.2 (by omega)) hi
  · rw [if_neg h]
    refine Finset.sum_eq_zero fun a ha => ?_
    have := Finset.mem_range.1 ha
    rw [vpow_low c a (by omega), vpow_low c (m - 1 - a) (by omega)]
    by_cases h1 : i.val = a
    · rw [Pi.single_eq_of_ne (i' := j) (by rw [Ne, Fin.ext_iff]; simp only; omega), mul_zero]
    · rw [Pi.single_eq_of_ne (i' := i) (by rw [Ne, Fin.ext_iff]; exact h1), zero_mul]

/-! ### The pass -/

theorem kRow_eq (c : Fin (k + 2) → 𝕜) (wpf rs : ℝ) (pal : Coef 𝕜 k) (kmats kh : SqMat 𝕜 k) (g : Fin (k + 1) → Fin (k + 1) → 𝕜)
    (hg : ∀ i j, g i j = g j i) (hkh : ∀ i j, i ≤ j → kh i j = g i j) (i j : Fin (k + 1)) (hij : i ≤ j) :
    (kRow c wpf rs pal kmats kh).2 i j = (rs : 𝕜) * ((if j = 0 then pal i else g i (prv j)) - g i (Fin.last k) * c j.castSucc) ∧
    (kRow c wpf rs pal kmats kh).1 i j =
      kmats i j + (wpf : 𝕜) * ((rs : 𝕜) * ((if j = 0 then pal i else g i (prv j)) - g i (Fin.last k) * c j.castSucc)) := by
  obtain ⟨new, hnew⟩ : ∃ new : Fin (k + 1) → Fin (k + 1) → 𝕜,
      new = fun i j => (rs : 𝕜) * ((if j = 0 then pal i else g i (prv j)) - g i (Fin.last k) * c j.castSucc) := ⟨_, rfl⟩
  have hn : ∀ i j, (rs : 𝕜) * ((if j = 0 then pal i else g i (prv j)) - g i (Fin.last k) * c j.castSucc) = new i j := by
    intro i j; rw [hnew]
  rw [hn]
  unfold kRow
  have key := forDn_inv (n := k + 1) (lo := 0) (f := fun i (t : SqMat 𝕜 k × SqMat 𝕜 k) =>
    let cho := t.2 i (Fin.last k) * (rs : 𝕜)
    let t := forDn (k + 1) (i.val + 1) (fun l (t : SqMat 𝕜 k × SqMat 𝕜 k) =>
      let v := t.2 i (prv l) * (rs : 𝕜) - cho * c l.castSucc
      (setE t.1 i l (t.1 i l + (wpf : 𝕜) * v), setE t.2 i l v)) t
    let v := (if 0 < i.val then t.2 (prv i) i * (rs : 𝕜) else pal i * (rs : 𝕜)) - cho * c i.castSucc
    (setE t.1 i i (t.1 i i + (wpf : 𝕜) * v), setE t.2 i i v)) (s := (kmats, kh))
    (fun m t => ∀ p q : Fin (k + 1), p ≤ q → (t.2 p q = if m ≤ p.val then new p q else g p q) ∧
      (t.1 p q = if m ≤ p.val then kmats p q + (wpf : 𝕜) * new p q else kmats p q)) (by omega) ?_ ?_
  · have := key i j hij
    simpa using this
  · intro p q hpq
    rw [if_neg (by omega), if_neg (by omega)]
    exact ⟨hkh p q hpq, rfl⟩
  · intro m hm _ t ht
    dsimp only
    have hlast : t.2 ⟨m, hm⟩ (Fin.last k) = g ⟨m, hm⟩ (Fin.last k) := by
      rw [(ht ⟨m, hm⟩ (Fin.last k) (Fin.le_last _)).1, if_neg (by simp)]
    rw [hlast]
    have key2 := forDn_inv (n := k + 1) (lo := m + 1) (f := fun l (t : SqMat 𝕜 k × SqMat 𝕜 k) =>
      (setE t.1 ⟨m, hm⟩ l (t.1 ⟨m, hm⟩ l + (wpf : 𝕜) * (t.2 ⟨m, hm⟩ (prv l) * (rs : 𝕜) - g ⟨m, hm⟩ (Fin.last k) * (rs : 𝕜) * c l.castSucc)),
        setE t.2 ⟨m, hm⟩ l (t.2 ⟨m, hm⟩ (prv l) * (rs : 𝕜) - g ⟨m, hm⟩ (Fin.last k) * (rs : 𝕜) * c l.castSucc))) (s := t)
      (fun l t => ∀ p q : Fin (k + 1), p ≤ q →
        (t.2 p q = if m + 1 ≤ p.val ∨ (p.val = m ∧ l ≤ q.val) then new p q else g p q) ∧
        (t.1 p q = if m + 1 ≤ p.val ∨ (p.val = m ∧ l ≤ q.val) then kmats p q + (wpf : 𝕜) * new p q else kmats p q)) (by omega) ?_ ?_
    · generalize forDn (k + 1) (m + 1) _ t = u at key2 ⊢
      have hdiag : (if 0 < m then u.2 (prv ⟨m, hm⟩) ⟨m, hm⟩ * (rs : 𝕜) else pal ⟨m, hm⟩ * (rs : 𝕜)) -
          g ⟨m, hm⟩ (Fin.last k) * (rs : 𝕜) * c (Fin.castSucc ⟨m, hm⟩) = new ⟨m, hm⟩ ⟨m, hm⟩ := by
        rw [hnew]
        dsimp only
        by_cases h0 : 0 < m
        · have hne : (⟨m, hm⟩ : Fin (k + 1)) ≠ 0 := by rw [Ne, Fin.ext_iff]; simp; omega
          rw [if_pos h0, if_neg hne, (key2 (prv ⟨m, hm⟩) ⟨m, hm⟩ (by rw [Fin.le_def]; simp only [prv]; omega)).1,
            if_neg (by simp only [prv]; omega), hg]
          ring
        · have hz : (⟨m, hm⟩ : Fin (k + 1)) = 0 := by rw [Fin.ext_iff]; simp; omega
          rw [if_neg h0, if_pos hz]
          ring
      rw [hdiag]
      intro p q hpq
      obtain ⟨e1, e2⟩ := key2 p q hpq
      rw [setE_sq_apply, setE_sq_apply]
      by_cases hpq' : p = ⟨m, hm⟩ ∧ q = ⟨m, hm⟩
      · obtain ⟨rfl, rfl⟩ := hpq'
        rw [if_pos (And.intro rfl rfl), if_pos (And.intro rfl rfl), if_pos (by simp), if_pos (by simp), e2, if_neg (by simp)]
        exact ⟨rfl, rfl⟩
      · rw [if_neg hpq', if_neg hpq', e1, e2]
        have hc : (m + 1 ≤ p.val ∨ (p.val = m ∧ m + 1 ≤ q.val)) ↔ m ≤ p.val := by
          constructor
          · rintro (h | h) <;> omega
          · intro h
            by_contra hcon
            have h1 : p.val = m := by omega
            have h2 : q.val = m := by have := Fin.le_def.1 hpq; omega
            exact hpq' ⟨Fin.ext h1, Fin.ext h2⟩
        simp only [hc, and_self]
    · intro p q hpq
      obtain ⟨e1, e2⟩ := ht p q hpq
      rw [e1, e2]
      have hc : (m + 1 ≤ p.val ∨ (p.val = m ∧ k + 1 ≤ q.val)) ↔ m + 1 ≤ p.val := by
        constructor
        · rintro (h | h)
          · exact h
          · omega
        · exact Or.inl
      simp only [hc, and_self]
    · intro l hl hml u hu p q hpq
      dsimp only
      have hv : u.2 ⟨m, hm⟩ (prv ⟨l, hl⟩) * (rs : 𝕜) - g ⟨m, hm⟩ (Fin.last k) * (rs : 𝕜) * c (Fin.castSucc ⟨l, hl⟩) = new ⟨m, hm⟩ ⟨l, hl⟩ := by
        rw [hnew]
        dsimp only
        have hne : (⟨l, hl⟩ : Fin (k + 1)) ≠ 0 := by rw [Ne, Fin.ext_iff]; simp; omega
        rw [if_neg hne, (hu ⟨m, hm⟩ (prv ⟨l, hl⟩) (by rw [Fin.le_def]; simp only [prv]; omega)).1, if_neg (by simp only [prv]; omega)]
        ring
      rw [hv, setE_sq_apply, setE_sq_apply]
      obtain ⟨e1, e2⟩ := hu p q hpq
      by_cases hpq' : p = ⟨m, hm⟩ ∧ q = ⟨l, hl⟩
      · obtain ⟨rfl, rfl⟩ := hpq'
        have hc : m + 1 ≤ (⟨m, hm⟩ : Fin (k + 1)).val ∨ ((⟨m, hm⟩ : Fin (k + 1)).val = m ∧ l ≤ (⟨l, hl⟩ : Fin (k + 1)).val) := Or.inr ⟨rfl, le_rfl⟩
        rw [if_pos (And.intro rfl rfl), if_pos (And.intro rfl rfl), if_pos hc, if_pos hc, e2, if_neg (by simp)]
        exact ⟨rfl, rfl⟩
      · rw [if_neg hpq', if_neg hpq', e1, e2]
        have hc : (m + 1 ≤ p.val ∨ (p.val = m ∧ l + 1 ≤ q.val)) ↔ (m + 1 ≤ p.val ∨ (p.val = m ∧ l ≤ q.val)) := by
          constructor
          · rintro (h | h)
            · exact Or.inl h
            · exact Or.inr ⟨h.1, by omega⟩
          · rintro (h | h)
            · exact Or.inl h
            · right
              refine ⟨h.1, ?_⟩
              by_contra hcon
              exact hpq' ⟨Fin.ext h.1, Fin.ext (by simp only; omega)⟩
        simp only [hc, and_self]

theorem kInit_eq (i j : Fin (k + 1)) (hij : i ≤ j) :
    (kInit : SqMat 𝕜 k) i j = if i.val + j.val < k + 1 then 1 / ((i.val + j.val + 1) ! : 𝕜) else 0 := by
  unfold kInit
  have key := forUp_inv (n := k + 1) (lo := 0) (f := fun i (t : SqMat 𝕜 k × ℝ) =>
    let wpf := t.2 / (i.val + 1 : ℝ)
    (forUp (i.val + 1) (i.val - i.val / 2) (fun j m => setE m ⟨i.val - j.val, by omega⟩ ⟨j.val, by omega⟩ (wpf : 𝕜)) t.1, wpf)) (s := (0, 1))
    (fun m t => t.2 = 1 / (m ! : ℝ) ∧ ∀ p q : Fin (k + 1), p ≤ q → t.1 p q = if p.val + q.val < m then 1 / ((p.val + q.val + 1) ! : 𝕜) else 0)
    (by omega) ?_ ?_
  · exact key.2 i j hij
  · refine ⟨by simp, fun p q _ => ?_⟩
    rw [if_neg (by omega)]
    rfl
  · rintro m hm - ⟨M, w⟩ ⟨h1, h2⟩
    dsimp only at h1 h2 ⊢
    have hw : w / (m + 1 : ℝ) = 1 / ((m + 1) ! : ℝ) := by
      rw [h1, Nat.factorial_succ, div_div]
      push_cast
      rw [mul_comm]
    refine ⟨hw, ?_⟩
    have key2 := forUp_inv (n := m + 1) (lo := m - m / 2) (f := fun j (M : SqMat 𝕜 k) =>
        setE M ⟨m - j.val, by omega⟩ ⟨j.val, by omega⟩ ((w / (m + 1 : ℝ) : ℝ) : 𝕜)) (s := M)
      (fun l M => ∀ p q : Fin (k + 1), p ≤ q → M p q =
        if p.val + q.val < m ∨ (p.val + q.val = m ∧ q.val < l) then 1 / ((p.val + q.val + 1) ! : 𝕜) else 0) (by omega) ?_ ?_
    · intro p q hpq
      rw [key2 p q hpq]
      have hc : (p.val + q.val < m ∨ (p.val + q.val = m ∧ q.val < m + 1)) ↔ p.val + q.val < m + 1 := by omega
      simp only [hc]
    · intro p q hpq
      rw [h2 p q hpq]
      have := Fin.le_def.1 hpq
      have hc : (p.val + q.val < m ∨ (p.val + q.val = m ∧ q.val < m - m / 2)) ↔ p.val + q.val < m := by omega
      simp only [hc]
    · intro l hl hml M' hM p q hpq
      dsimp only
      rw [setE_sq_apply]
      by_cases hpq' : p = ⟨m - l, by omega⟩ ∧ q = ⟨l, by omega⟩
      · rw [if_pos hpq', hpq'.1, hpq'.2, if_pos (by simp only; omega), hw]
        push_cast
        rw [show m - l + l + 1 = m + 1 by omega]
      · rw [if_neg hpq', hM p q hpq]
        have hc : (p.val + q.val < m ∨ (p.val + q.val = m ∧ q.val < l + 1)) ↔ (p.val + q.val < m ∨ (p.val + q.val = m ∧ q.val < l)) := by
          constructor
          · rintro (h | h)
            · exact Or.inl h
            · by_cases h3 : q.val = l
              · exact absurd ⟨Fin.ext (by simp only; omega), Fin.ext h3⟩ hpq'
              · exact Or.inr ⟨h.1, by omega⟩
          · rintro (h | h)
            · exact Or.inl h
            · exact Or.inr ⟨h.1, by omega⟩
        simp only [hc]

theorem khInit_eq (i j : Fin (k + 1)) (hij : i ≤ j) : (khInit : SqMat 𝕜 k) i j = if i.val + j.val = k then 1 else 0 := by
  unfold khInit
  have key := forUp_inv (n := k + 1) (lo := k - k / 2) (f := fun i (m : SqMat 𝕜 k) => setE m ⟨k - i.val, by omega⟩ i 1) (s := 0)
    (fun l M => ∀ p q : Fin (k + 1), p ≤ q → M p q = if p.val + q.val = k ∧ q.val < l then 1 else 0) (by omega) ?_ ?_
  · rw [key i j hij]
    have hc : (i.val + j.val = k ∧ j.val < k + 1) ↔ i.val + j.val = k := by omega
    simp only [hc]
  · intro p q hpq
    have := Fin.le_def.1 hpq
    rw [if_neg (by omega)]
    rfl
  · intro l hl hml M hM p q hpq
    rw [setE_sq_apply]
    by_cases hpq' : p = ⟨k - l, by omega⟩ ∧ q = ⟨l, hl⟩
    · rw [if_pos hpq', if_pos ⟨by rw [hpq'.1, hpq'.2]; simp only; omega, by rw [hpq'.2]; simp⟩]
    · rw [if_neg hpq', hM p q hpq]
      have hc : (p.val + q.val = k ∧ q.val < l + 1) ↔ (p.val + q.val = k ∧ q.val < l) := by
        constructor
        · rintro ⟨h1, h2⟩
          by_cases h3 : q.val = l
          · exact absurd ⟨Fin.ext (by simp only; omega), Fin.ext h3⟩ hpq'
          · exact ⟨h1, by omega⟩
        · rintro ⟨h1, h2⟩
          exact ⟨h1, by omega⟩
      simp only [hc]

/-- What holds before pass `j` with derivative. -/
structure KInv (c : Fin (k + 2) → 𝕜) (j : ℕ) (st : ChKState 𝕜 k) : Prop where
  base : ChInv c j st.toChState
  kh : ∀ p q, p ≤ q → (st.wpf : 𝕜) * st.kh p q = 1 / (j ! : 𝕜) * sMat c j p q
  kmats : ∀ p q, p ≤ q → st.kmats p q = ∑ m ∈ Finset.range (j + 1), 1 / (m ! : 𝕜) * sMat c m p q

theorem kInit_inv (add : ℝ → ℝ → ℝ) (c : Fin (k + 2) → 𝕜) : KInv c (k + 1) (⟨chInit add, kInit, khInit⟩ : ChKState 𝕜 k) := by
  have hb := chInit_inv add c
  refine ⟨hb, fun p q hpq => ?_, fun p q hpq => ?_⟩
  · have h1 := hb.pal (Fin.last k)
    rw [show k + 1 - 1 = k by omega, vpow_low c k (by omega)] at h1
    have e1 : (chInit add : ChState 𝕜 k).rs = 1 := rfl
    have e2 : (chInit add : ChState 𝕜 k).pal (Fin.last k) = 1 := by
      show (Function.update (0 : Coef 𝕜 k) (Fin.last k) 1) (Fin.last k) = 1
      rw [Function.update_self]
    rw [e1, e2, mul_one, mul_one] at h1
    have e3 : (Pi.single (⟨k, by omega⟩ : Fin (k + 1)) 1 : Coef 𝕜 k) (Fin.last k) = 1 := Pi.single_eq_same _ _
    rw [e3, mul_one] at h1
    show ((chInit add : ChState 𝕜 k).wpf : 𝕜) * khInit p q = _
    rw [h1, khInit_eq p q hpq, sMat_low c (k + 1) le_rfl]
    congr 1
    have hc : (p.val + q.val = k) ↔ (p.val + q.val + 1 = k + 1) := by omega
    simp only [hc]
  · show (kInit : SqMat 𝕜 k) p q = _
    rw [kInit_eq p q hpq]
    rw [Finset.sum_congr rfl fun m hm => by rw [sMat_low c m (by have := Finset.mem_range.1 hm; omega)]]
    by_cases h : p.val + q.val < k + 1
    · rw [if_pos h, Finset.sum_eq_single (p.val + q.val + 1)]
      · simp
      · intro m _ hm
        rw [if_neg (fun h => hm h.symm), mul_zero]
      · intro hm
        exact absurd (Finset.mem_range.2 (by omega)) hm
    · rw [if_neg h, Finset.sum_eq_zero]
      intro m hm
      have := Finset.mem_range.1 hm
      rw [if_neg (by omega), mul_zero]

theorem kPass_inv (c : Fin (k + 2) → 𝕜) (j : ℕ) (hj : 1 ≤ j) (st : ChKState 𝕜 k) (h : KInv c j st) (t : ℝ) :
    let st' : ChState 𝕜 k := { (chPass c j st.toChState).1 with twpf := t }
    let q := kRow c st'.wpf st'.rs st'.pal st.kmats st.kh
    KInv c (j + 1) ⟨st', q.1, q.2⟩ := by
  dsimp only
  obtain ⟨h1, h2, h3⟩ := chPass_inv c j hj st.toChState h.base
  have hw := h.base.wpf
  have hwr : ((chPass c j st.toChState).1.wpf : 𝕜) * ((chPass c j st.toChState).1.rs : 𝕜) = (st.wpf : 𝕜) / ((j : 𝕜) + 1) := by
    unfold chPass
    dsimp only
    split_ifs with hs
    · dsimp only
      generalize Real.sqrt (chRow c st.wpf st.rs st.pal st.al).2.2 = s at hs ⊢
      have hs0 : s ≠ 0 := by linarith
      rw [← RCLike.ofReal_mul, show st.wpf * (s / (j + 1 : ℝ)) * (1 / s) = st.wpf / (j + 1 : ℝ) by field_simp]
      push_cast; rfl
    · dsimp only
      push_cast; ring
  have hw0 : (st.wpf : 𝕜) ≠ 0 := by exact_mod_cast hw.ne'
  have hj0 : (j : 𝕜) + 1 ≠ 0 := by exact_mod_cast Nat.succ_ne_zero j
  have hf0 : (j ! : 𝕜) ≠ 0 := by exact_mod_cast (Nat.factorial_pos j).ne'
  have hkh : ∀ p q, p ≤ q → st.kh p q = (1 / (st.wpf : 𝕜)) * (1 / (j ! : 𝕜) * sMat c j p q) := by
    intro p q hpq
    rw [← h.kh p q hpq]; field_simp
  generalize (chPass c j st.toChState).1 = st1 at h1 h3 hwr ⊢
  have hpal : ∀ i, st1.pal i = (1 / (st.wpf : 𝕜)) * (1 / (j ! : 𝕜) * vpow c j i) := by
    intro i
    rw [← h3 i]; field_simp
  have hrow := fun p q hpq => kRow_eq c st1.wpf st1.rs st1.pal st.kmats st.kh
    (fun p q => (1 / (st.wpf : 𝕜)) * (1 / (j ! : 𝕜) * sMat c j p q)) (fun p q => by rw [sMat_comm]) hkh p q hpq
  have hval : ∀ p q : Fin (k + 1), p ≤ q → (st1.wpf : 𝕜) * ((st1.rs : 𝕜) * ((if q = 0 then st1.pal p else (1 / (st.wpf : 𝕜)) * (1 / (j ! : 𝕜) * sMat c j p (prv q))) -
      (1 / (st.wpf : 𝕜)) * (1 / (j ! : 𝕜) * sMat c j p (Fin.last k)) * c q.castSucc)) = 1 / ((j + 1) ! : 𝕜) * sMat c (j + 1) p q := by
    intro p q hpq
    rw [← mul_assoc, hwr, sMat_succ, hpal, Nat.factorial_succ]
    push_cast
    split_ifs
    · field_simp
    · field_simp
  refine ⟨h1.twpf t, fun p q hpq => ?_, fun p q hpq => ?_⟩
  · dsimp only
    rw [(hrow p q hpq).1, hval p q hpq]
  · dsimp only
    rw [(hrow p q hpq).2, hval p q hpq, h.kmats p q hpq, Finset.sum_range_succ _ (j + 1)]

/-- The result of the loop with derivative. -/
theorem chKLoop_spec (add : ℝ → ℝ → ℝ) (c : Fin (k + 2) → 𝕜) (left j : ℕ) (hj : 1 ≤ j) (st : ChKState 𝕜 k) (h : KInv c j st) :
    ∃ J, j ≤ J ∧ J ≤ j + left ∧ (chKLoop add c left j st).1.al = coefT c J ∧ ∃ J', (J' = J ∨ (J' = J + 1 ∧ J = j + left)) ∧
      ∀ p q, p ≤ q → (chKLoop add c left j st).1.kmats p q = ∑ m ∈ Finset.range J', 1 / (m ! : 𝕜) * sMat c m p q := by
  induction left generalizing j st with
  | zero => exact ⟨j, le_rfl, by omega, h.base.al, j + 1, Or.inr ⟨rfl, rfl⟩, h.kmats⟩
  | succ left ih =>
    unfold chKLoop
    dsimp only
    split_ifs with ht
    · obtain ⟨h1, h2, h3⟩ := chPass_inv c j hj st.toChState h.base
      exact ⟨j + 1, by omega, by omega, h1.al, j + 1, Or.inl rfl, h.kmats⟩
    · obtain ⟨J, h1, h2, h3, J', h4, h5⟩ := ih (j + 1) (by omega) _ (kPass_inv c j hj st h (add st.twpf (chPass c j st.toChState).2))
      exact ⟨J, by omega, by omega, h3, J', by omega, h5⟩

/-! ### Squarings -/

theorem sqInit_eq (al : Coef 𝕜 k) (kmats kh : SqMat 𝕜 k) :
    (sqInit al kmats kh).1 = (fun i => al i * al 0) ∧ (∀ p q, (sqInit al kmats kh).2.2 p q = (1 / 2 : 𝕜) * symU kmats p q) ∧
    ∀ p q, p ≤ q → (sqInit al kmats kh).2.1 p q = (1 / 2 : 𝕜) * symU kmats p 0 * al q + (1 / 2 : 𝕜) * symU kmats 0 q * al p := by
  obtain ⟨K, hK⟩ : ∃ K : SqMat 𝕜 k, K = symU kmats := ⟨_, rfl⟩
  obtain ⟨N, hN⟩ : ∃ N : Fin (k + 1) → Fin (k + 1) → 𝕜, N = fun p q => (1 / 2 : 𝕜) * K 0 p * al q + (1 / 2 : 𝕜) * K 0 q * al p := ⟨_, rfl⟩
  have hup : ∀ p q, p ≤ q → kmats p q = K p q := fun p q h => by rw [hK, symU_upper _ h]
  have hcomm : ∀ p q, K p q = K q p := fun p q => by rw [hK, symU_comm]
  rw [← hK]
  unfold sqInit
  have key := forUp_inv (n := k + 1) (lo := 0) (f := fun i (t : Coef 𝕜 k × SqMat 𝕜 k × SqMat 𝕜 k) =>
    let kh := setE t.2.2 i i ((1 / 2 : 𝕜) * t.2.1 i i)
    let kmats := setE t.2.1 i i (2 * kh 0 i * t.1 i)
    let u := forUp (k + 1) (i.val + 1) (fun j (u : SqMat 𝕜 k × SqMat 𝕜 k) =>
      let v := (1 / 2 : 𝕜) * u.1 i j
      let kh := setE (setE u.2 i j v) j i v
      (setE u.1 i j (kh 0 i * t.1 j + kh 0 j * t.1 i), kh)) (kmats, kh)
    (Function.update t.1 i (t.1 i * al 0), u)) (s := (al, kmats, kh))
    (fun m t => (∀ p : Fin (k + 1), t.1 p = if p.val < m then al p * al 0 else al p) ∧
      (∀ p q : Fin (k + 1), p.val < m ∨ q.val < m → t.2.2 p q = (1 / 2 : 𝕜) * K p q) ∧
      ∀ p q : Fin (k + 1), p ≤ q → t.2.1 p q = if p.val < m then N p q else K p q) (by omega) ?_ ?_
  · obtain ⟨h1, h2, h3⟩ := key
    refine ⟨funext fun p => by rw [h1, if_pos p.isLt], fun p q => h2 p q (Or.inl p.isLt), fun p q hpq => ?_⟩
    rw [h3 p q hpq, if_pos p.isLt, hN, hcomm p 0]
  · exact ⟨fun p => by rw [if_neg (by omega)], fun p q h => by omega, fun p q hpq => by rw [if_neg (by omega)]; exact hup p q hpq⟩
  · rintro m hm - ⟨a, M, H⟩ ⟨h1, h2, h3⟩
    dsimp only at h1 h2 h3 ⊢
    have hMm : M ⟨m, hm⟩ ⟨m, hm⟩ = K ⟨m, hm⟩ ⟨m, hm⟩ := by rw [h3 _ _ le_rfl, if_neg (by simp)]
    have ham : ∀ p : Fin (k + 1), m ≤ p.val → a p = al p := fun p hp => by rw [h1, if_neg (by omega)]
    rw [hMm]
    -- the new element (0, m) of kh
    have hH0 : setE H ⟨m, hm⟩ ⟨m, hm⟩ ((1 / 2 : 𝕜) * K ⟨m, hm⟩ ⟨m, hm⟩) 0 ⟨m, hm⟩ = (1 / 2 : 𝕜) * K 0 ⟨m, hm⟩ := by
      rw [setE_sq_apply]
      by_cases h0 : (0 : Fin (k + 1)) = ⟨m, hm⟩
      · rw [if_pos ⟨h0, rfl⟩, ← h0]
      · rw [if_neg (fun h => h0 h.1), h2 _ _ (Or.inl _)]
        have : m ≠ 0 := fun h => h0 (Fin.ext h.symm)
        simp; omega
    rw [hH0, ham ⟨m, hm⟩ le_rfl]
    have key2 := forUp_inv (n := k + 1) (lo := m + 1) (f := fun j (u : SqMat 𝕜 k × SqMat 𝕜 k) =>
        (setE u.1 ⟨m, hm⟩ j (setE (setE u.2 ⟨m, hm⟩ j ((1 / 2 : 𝕜) * u.1 ⟨m, hm⟩ j)) j ⟨m, hm⟩ ((1 / 2 : 𝕜) * u.1 ⟨m, hm⟩ j) 0 ⟨m, hm⟩ * a j +
          setE (setE u.2 ⟨m, hm⟩ j ((1 / 2 : 𝕜) * u.1 ⟨m, hm⟩ j)) j ⟨m, hm⟩ ((1 / 2 : 𝕜) * u.1 ⟨m, hm⟩ j) 0 j * al ⟨m, hm⟩),
          setE (setE u.2 ⟨m, hm⟩ j ((1 / 2 : 𝕜) * u.1 ⟨m, hm⟩ j)) j ⟨m, hm⟩ ((1 / 2 : 𝕜) * u.1 ⟨m, hm⟩ j)))
      (s := (setE M ⟨m, hm⟩ ⟨m, hm⟩ (2 * ((1 / 2 : 𝕜) * K 0 ⟨m, hm⟩) * al ⟨m, hm⟩), setE H ⟨m, hm⟩ ⟨m, hm⟩ ((1 / 2 : 𝕜) * K ⟨m, hm⟩ ⟨m, hm⟩)))
      (fun l u => (∀ p q : Fin (k + 1), (p.val < m ∨ q.val < m ∨ (p.val = m ∧ q.val < l) ∨ (q.val = m ∧ p.val < l)) → u.2 p q = (1 / 2 : 𝕜) * K p q) ∧
        ∀ p q : Fin (k + 1), p ≤ q → u.1 p q = if p.val < m ∨ (p.val = m ∧ q.val < l) then N p q else K p q) (by omega) ?_ ?_
    · generalize forUp (k + 1) (m + 1) _ _ = u at key2 ⊢
      obtain ⟨g2, g3⟩ := key2
      refine ⟨fun p => ?_, fun p q hpq => ?_, fun p q hpq => ?_⟩
      · by_cases hp : p = ⟨m, hm⟩
        · subst hp
          rw [Function.update_self, if_pos (by simp)]
        · rw [Function.update_of_ne hp, h1]
          have : p.val ≠ m := fun h => hp (Fin.ext h)
          split_ifs <;> first | rfl | (exfalso; omega)
      · exact g2 p q (by omega)
      · rw [g3 p q hpq]
        have hc : (p.val < m ∨ (p.val = m ∧ q.val < k + 1)) ↔ p.val < m + 1 := by omega
        simp only [hc]
    · dsimp only
      refine ⟨fun p q hpq => ?_, fun p q hpq => ?_⟩
      · rw [setE_sq_apply]
        by_cases h0 : p = ⟨m, hm⟩ ∧ q = ⟨m, hm⟩
        · rw [if_pos h0, h0.1, h0.2]
        · rw [if_neg h0]
          refine h2 p q ?_
          by_contra hcon
          have h5 : ¬ (p.val = m ∧ q.val = m) := fun h => h0 ⟨Fin.ext h.1, Fin.ext h.2⟩
          omega
      · rw [setE_sq_apply]
        by_cases h0 : p = ⟨m, hm⟩ ∧ q = ⟨m, hm⟩
        · rw [if_pos h0, h0.1, h0.2, if_pos (by simp), hN]
          dsimp only
          ring
        · rw [if_neg h0, h3 p q hpq]
          have h5 : ¬ (p.val = m ∧ q.val = m) := fun h => h0 ⟨Fin.ext h.1, Fin.ext h.2⟩
          have := Fin.le_def.1 hpq
          have hc : (p.val < m ∨ (p.val = m ∧ q.val < m + 1)) ↔ p.val < m := by omega
          simp only [hc]
    · rintro l hl hml ⟨M', H'⟩ ⟨g2, g3⟩
      dsimp only at g2 g3 ⊢
      have hM' : M' ⟨m, hm⟩ ⟨l, hl⟩ = K ⟨m, hm⟩ ⟨l, hl⟩ := by
        rw [g3 _ _ (by rw [Fin.le_def]; simp only; omega), if_neg (by simp)]
      rw [hM', ham ⟨l, hl⟩ (by simp only; omega)]
      have hnewH : ∀ p q : Fin (k + 1), (p.val < m ∨ q.val < m ∨ (p.val = m ∧ q.val < l + 1) ∨ (q.val = m ∧ p.val < l + 1)) →
          setE (setE H' ⟨m, hm⟩ ⟨l, hl⟩ ((1 / 2 : 𝕜) * K ⟨m, hm⟩ ⟨l, hl⟩)) ⟨l, hl⟩ ⟨m, hm⟩ ((1 / 2 : 𝕜) * K ⟨m, hm⟩ ⟨l, hl⟩) p q = (1 / 2 : 𝕜) * K p q := by
        intro p q hpq
        rw [setE_sq_apply, setE_sq_apply]
        by_cases h5 : p = ⟨l, hl⟩ ∧ q = ⟨m, hm⟩
        · rw [if_pos h5, h5.1, h5.2, hcomm]
        · rw [if_neg h5]
          by_cases h6 : p = ⟨m, hm⟩ ∧ q = ⟨l, hl⟩
          · rw [if_pos h6, h6.1, h6.2]
          · rw [if_neg h6]
            refine g2 p q ?_
            have h7 : ¬ (p.val = l ∧ q.val = m) := fun h => h5 ⟨Fin.ext h.1, Fin.ext h.2⟩
            have h8 : ¬ (p.val = m ∧ q.val = l) := fun h => h6 ⟨Fin.ext h.1, Fin.ext h.2⟩
            omega
      refine ⟨hnewH, fun p q hpq => ?_⟩
      rw [setE_sq_apply]
      by_cases h5 : p = ⟨m, hm⟩ ∧ q = ⟨l, hl⟩
      · have z : ((0 : Fin (k + 1)) : ℕ) = 0 := rfl
        rw [if_pos h5, h5.1, h5.2, if_pos (by simp), hN, hnewH 0 ⟨m, hm⟩ (by simp only [z]; omega), hnewH 0 ⟨l, hl⟩ (by simp only [z]; omega)]
      · rw [if_neg h5, g3 p q hpq]
        have h8 : ¬ (p.val = m ∧ q.val = l) := fun h => h5 ⟨Fin.ext h.1, Fin.ext h.2⟩
        have hc : (p.val < m ∨ (p.val = m ∧ q.val < l + 1)) ↔ (p.val < m ∨ (p.val = m ∧ q.val < l)) := by omega
        simp only [hc]

/-- The inner loop of a squaring. -/
theorem addRow_eq (i : Fin (k + 1)) (lo : ℕ) (hlo : lo ≤ k + 1) (w : Fin (k + 1) → 𝕜) (M : SqMat 𝕜 k) (p q : Fin (k + 1)) :
    forUp (k + 1) lo (fun j m => setE m i j (m i j + w j)) M p q = if p = i ∧ lo ≤ q.val then M p q + w q else M p q := by
  have key := forUp_inv (n := k + 1) (lo := lo) (f := fun j (m : SqMat 𝕜 k) => setE m i j (m i j + w j)) (s := M)
    (fun l M' => ∀ p q : Fin (k + 1), M' p q = if p = i ∧ lo ≤ q.val ∧ q.val < l then M p q + w q else M p q) hlo ?_ ?_
  · rw [key p q]
    have hc : (p = i ∧ lo ≤ q.val ∧ q.val < k + 1) ↔ (p = i ∧ lo ≤ q.val) := by
      constructor
      · rintro ⟨a, b, _⟩; exact ⟨a, b⟩
      · rintro ⟨a, b⟩; exact ⟨a, b, q.isLt⟩
    simp only [hc]
  · intro p q
    rw [if_neg (by omega)]
  · intro l hl hml M' hM p q
    rw [setE_sq_apply]
    by_cases h5 : p = i ∧ q = ⟨l, hl⟩
    · obtain ⟨rfl, rfl⟩ := h5
      rw [if_pos ⟨rfl, rfl⟩, if_pos ⟨rfl, hml, by simp⟩, hM, if_neg (by simp)]
    · rw [if_neg h5, hM]
      have hc : (p = i ∧ lo ≤ q.val ∧ q.val < l + 1) ↔ (p = i ∧ lo ≤ q.val ∧ q.val < l) := by
        constructor
        · rintro ⟨a, b, e⟩
          have : q.val ≠ l := fun h => h5 ⟨a, Fin.ext h⟩
          exact ⟨a, b, by omega⟩
        · rintro ⟨a, b, e⟩; exact ⟨a, b, by omega⟩
      simp only [hc]

theorem sqKRow_eq (c : Fin (k + 2) → 𝕜) (w : 𝕜) (l : Fin (k + 1)) (kh : SqMat 𝕜 k) (pal al : Coef 𝕜 k) (kmats : SqMat 𝕜 k) :
    (sqKRow c w l kh pal al kmats).1 = mulX c pal ∧ (sqKRow c w l kh pal al kmats).2.1 = (fun i => al i + w * mulX c pal i) ∧
    ∀ p q, p ≤ q → (sqKRow c w l kh pal al kmats).2.2 p q = kmats p q + (kh p l * mulX c pal q + kh l q * mulX c pal p) := by
  unfold sqKRow
  dsimp only
  have hnew : ∀ i : Fin (k + 1), i ≠ 0 → mulX c pal i = pal (prv i) - pal (Fin.last k) * c i.castSucc := by
    intro i hi
    unfold mulX
    rw [if_neg hi]
  have hnew0 : mulX c pal 0 = -(pal (Fin.last k)) * c 0 := by
    unfold mulX
    rw [if_pos rfl, Fin.castSucc_zero]; ring
  have key := forDn_inv (n := k + 1) (lo := 1) (f := fun i (t : Coef 𝕜 k × Coef 𝕜 k × SqMat 𝕜 k) =>
    (Function.update t.1 i (t.1 (prv i) - pal (Fin.last k) * c i.castSucc),
      Function.update t.2.1 i (t.2.1 i + w * (t.1 (prv i) - pal (Fin.last k) * c i.castSucc)),
      forUp (k + 1) i.val (fun j m => setE m i j (m i j + (kh i l * Function.update t.1 i (t.1 (prv i) - pal (Fin.last k) * c i.castSucc) j +
        kh l j * Function.update t.1 i (t.1 (prv i) - pal (Fin.last k) * c i.castSucc) i))) t.2.2)) (s := (pal, al, kmats))
    (fun m t => (∀ i, t.1 i = if m ≤ i.val then mulX c pal i else pal i) ∧
      (∀ i, t.2.1 i = if m ≤ i.val then al i + w * mulX c pal i else al i) ∧
      ∀ p q : Fin (k + 1), p ≤ q → t.2.2 p q = if m ≤ p.val then kmats p q + (kh p l * mulX c pal q + kh l q * mulX c pal p) else kmats p q)
    (by omega) ?_ ?_
  · generalize forDn (k + 1) 1 _ _ = t at key ⊢
    obtain ⟨h1, h2, h3⟩ := key
    have hp : Function.update t.1 0 (-pal (Fin.last k) * c 0) = mulX c pal := by
      funext i
      by_cases hi : i = 0
      · subst hi; rw [Function.update_self, hnew0]
      · rw [Function.update_of_ne hi, h1, if_pos (one_le_val hi)]
    rw [hp]
    refine ⟨rfl, ?_, fun p q hpq => ?_⟩
    · funext i
      by_cases hi : i = 0
      · subst hi; rw [Function.update_self, hnew0, h2, if_neg (by simp)]
      · rw [Function.update_of_ne hi, h2, if_pos (one_le_val hi)]
    · rw [addRow_eq 0 0 (by omega) (fun j => kh 0 l * mulX c pal j + kh l j * mulX c pal 0), h3 p q hpq]
      by_cases hp0 : p = 0
      · subst hp0
        rw [if_pos ⟨rfl, by omega⟩, if_neg (by simp)]
      · rw [if_neg (fun h => hp0 h.1), if_pos (one_le_val hp0)]
  · exact ⟨fun i => by rw [if_neg (by omega)], fun i => by rw [if_neg (by omega)], fun p q _ => by rw [if_neg (by omega)]⟩
  · rintro m hm hl ⟨p, a, M⟩ ⟨h1, h2, h3⟩
    dsimp only at h1 h2 h3 ⊢
    have hv : p (prv ⟨m, hm⟩) - pal (Fin.last k) * c (Fin.castSucc ⟨m, hm⟩) = mulX c pal ⟨m, hm⟩ := by
      rw [hnew _ (by rw [Ne, Fin.ext_iff]; simp; omega), h1, if_neg (by simp only [prv]; omega)]
    rw [hv]
    have hupd : ∀ i, Function.update p ⟨m, hm⟩ (mulX c pal ⟨m, hm⟩) i = if m ≤ i.val then mulX c pal i else pal i := by
      intro i
      by_cases hi : i = ⟨m, hm⟩
      · subst hi; rw [Function.update_self, if_pos (by simp)]
      · rw [Function.update_of_ne hi, h1]
        have : i.val ≠ m := fun h => hi (Fin.ext h)
        split_ifs <;> first | rfl | (exfalso; omega)
    refine ⟨hupd, fun i => ?_, fun i j hij => ?_⟩
    · by_cases hi : i = ⟨m, hm⟩
      · subst hi; rw [Function.update_self, if_pos (by simp), h2, if_neg (by simp)]
      · rw [Function.update_of_ne hi, h2]
        have : i.val ≠ m := fun h => hi (Fin.ext h)
        split_ifs <;> first | rfl | (exfalso; omega)
    · rw [addRow_eq ⟨m, hm⟩ m (by omega) (fun j => kh ⟨m, hm⟩ l * Function.update p ⟨m, hm⟩ (mulX c pal ⟨m, hm⟩) j +
        kh l j * Function.update p ⟨m, hm⟩ (mulX c pal ⟨m, hm⟩) ⟨m, hm⟩), h3 i j hij]
      have hle := Fin.le_def.1 hij
      by_cases hi : i = ⟨m, hm⟩
      · subst hi
        rw [if_pos ⟨rfl, hle⟩, if_neg (by simp), if_pos (by simp), Function.update_self, hupd, if_pos hle]
      · rw [if_neg (fun h => hi h.1)]
        have : i.val ≠ m := fun h => hi (Fin.ext h)
        split_ifs <;> first | rfl | (exfalso; omega)

theorem chKSquare_eq (c : Fin (k + 2) → 𝕜) (t : Coef 𝕜 k × SqMat 𝕜 k × SqMat 𝕜 k) :
    (chKSquare c t).1 = chSquare c t.1 ∧ ∀ p q, p ≤ q → (chKSquare c t).2.1 p q =
      ∑ l : Fin (k + 1), ((1 / 2 : 𝕜) * symU t.2.1 p l * (mulX c)^[l.val] t.1 q + (1 / 2 : 𝕜) * symU t.2.1 l q * (mulX c)^[l.val] t.1 p) := by
  obtain ⟨al, kmats, kh⟩ := t
  unfold chKSquare
  dsimp only
  obtain ⟨s1, s2, s3⟩ := sqInit_eq al kmats kh
  generalize sqInit al kmats kh = u at s1 s2 s3 ⊢
  have key := forUp_inv (n := k + 1) (lo := 1) (f := fun l (v : Coef 𝕜 k × Coef 𝕜 k × SqMat 𝕜 k) => sqKRow c (al l) l u.2.2 v.1 v.2.1 v.2.2)
    (s := (al, u.1, u.2.1))
    (fun m v => v.1 = (mulX c)^[m - 1] al ∧ (∀ i, v.2.1 i = ∑ l : Fin (k + 1), if l.val < m then al l * (mulX c)^[l.val] al i else 0) ∧
      ∀ p q : Fin (k + 1), p ≤ q → v.2.2 p q = ∑ l : Fin (k + 1), if l.val < m then
        ((1 / 2 : 𝕜) * symU kmats p l * (mulX c)^[l.val] al q + (1 / 2 : 𝕜) * symU kmats l q * (mulX c)^[l.val] al p) else 0) (by omega) ?_ ?_
  · obtain ⟨h1, h2, h3⟩ := key
    refine ⟨funext fun i => ?_, fun p q hpq => ?_⟩
    · rw [h2, chSquare_eq]
      exact Finset.sum_congr rfl fun l _ => by rw [if_pos l.isLt]
    · rw [h3 p q hpq]
      exact Finset.sum_congr rfl fun l _ => by rw [if_pos l.isLt]
  · refine ⟨rfl, fun i => ?_, fun p q hpq => ?_⟩
    · dsimp only
      rw [s1, Finset.sum_eq_single 0]
      · simp [mul_comm]
      · intro l _ hl
        rw [if_neg (by have := one_le_val hl; omega)]
      · simp
    · dsimp only
      rw [s3 p q hpq, Finset.sum_eq_single 0]
      · simp
      · intro l _ hl
        rw [if_neg (by have := one_le_val hl; omega)]
      · simp
  · rintro m hm hl ⟨p, a, M⟩ ⟨h1, h2, h3⟩
    dsimp only at h1 h2 h3 ⊢
    obtain ⟨r1, r2, r3⟩ := sqKRow_eq c (al ⟨m, hm⟩) ⟨m, hm⟩ u.2.2 p a M
    have h4 : mulX c p = (mulX c)^[m] al := by
      rw [h1, ← Function.iterate_succ_apply' (f := mulX c), show (m - 1).succ = m by omega]
    rw [h4] at r1 r2 r3
    have hsplit : ∀ f : Fin (k + 1) → 𝕜, (∑ l : Fin (k + 1), if l.val < m + 1 then f l else 0) =
        (∑ l : Fin (k + 1), if l.val < m then f l else 0) + f ⟨m, hm⟩ := by
      intro f
      rw [← Finset.add_sum_erase _ _ (Finset.mem_univ (⟨m, hm⟩ : Fin (k + 1))),
        ← Finset.add_sum_erase _ (fun l : Fin (k + 1) => if l.val < m then f l else 0) (Finset.mem_univ (⟨m, hm⟩ : Fin (k + 1)))]
      rw [if_pos (by simp), if_neg (by simp), zero_add, add_comm]
      congr 1
      refine Finset.sum_congr rfl fun j hj => ?_
      have : j.val ≠ m := fun h => (Finset.ne_of_mem_erase hj) (Fin.ext h)
      split_ifs <;> first | rfl | (exfalso; omega)
    refine ⟨by rw [r1]; rfl, fun i => ?_, fun i j hij => ?_⟩
    · rw [r2, hsplit, ← h2]
    · rw [r3 i j hij, hsplit, h3 i j hij, s2, s2]

/-! ### Evaluation -/

theorem evK_sum {ι : Type} (s : Finset ι) (B Z : SqMat 𝕜 k) (M : ι → Fin (k + 1) → Fin (k + 1) → 𝕜) :
    evK B (Matrix.of fun i j => ∑ l ∈ s, M l i j) Z = ∑ l ∈ s, evK B (Matrix.of (M l)) Z := by
  unfold evK
  simp only [Matrix.of_apply, Finset.sum_smul]
  rw [Finset.sum_comm]
  conv_rhs => rw [Finset.sum_comm]
  rw [Finset.sum_comm]
  refine Finset.sum_congr rfl fun i _ => ?_
  rw [Finset.sum_comm]

theorem evK_smul (B Z : SqMat 𝕜 k) (a : 𝕜) (M : Fin (k + 1) → Fin (k + 1) → 𝕜) :
    evK B (Matrix.of fun i j => a * M i j) Z = a • evK B (Matrix.of M) Z := by
  unfold evK
  simp only [Matrix.of_apply, mul_smul, Finset.smul_sum]

theorem evK_tensor (B Z : SqMat 𝕜 k) (v w : Coef 𝕜 k) : evK B (Matrix.of fun i j => v i * w j) Z = evC B v * Z * evC B w := by
  unfold evK evC
  rw [Finset.sum_mul, Finset.sum_mul]
  refine Finset.sum_congr rfl fun i _ => ?_
  rw [Finset.mul_sum]
  refine Finset.sum_congr rfl fun j _ => ?_
  rw [Matrix.of_apply, smul_mul_assoc, smul_mul_assoc, mul_smul_comm, smul_smul]

/-- The derivative of `B^m` in direction `Z`. -/
def dpow (B Z : SqMat 𝕜 k) (m : ℕ) : SqMat 𝕜 k := ∑ a ∈ Finset.range m, B ^ a * Z * B ^ (m - 1 - a)

/-- The derivative of the Taylor sum in direction `Z`. -/
noncomputable def dtaylor (B Z : SqMat 𝕜 k) (J : ℕ) : SqMat 𝕜 k := ∑ m ∈ Finset.range J, (1 / (m ! : 𝕜)) • dpow B Z m

theorem evK_sMat (c : Fin (k + 2) → 𝕜) (B : SqMat 𝕜 k) (h : IsCharpoly c B) (Z : SqMat 𝕜 k) (m : ℕ) :
    evK B (Matrix.of (sMat c m)) Z = dpow B Z m := by
  have : (sMat c m) = fun i j => ∑ a ∈ Finset.range m, (fun a i j => vpow c a i * vpow c (m - 1 - a) j) a i j := rfl
  rw [this, evK_sum]
  unfold dpow
  exact Finset.sum_congr rfl fun a _ => by rw [evK_tensor, evC_vpow c B h, evC_vpow c B h]

theorem evK_loop (c : Fin (k + 2) → 𝕜) (B : SqMat 𝕜 k) (h : IsCharpoly c B) (Z M : SqMat 𝕜 k) (J : ℕ)
    (hM : ∀ p q, p ≤ q → M p q = ∑ m ∈ Finset.range J, 1 / (m ! : 𝕜) * sMat c m p q) : evK B (symU M) Z = dtaylor B Z J := by
  rw [symU_eq M (fun p q => ∑ m ∈ Finset.range J, 1 / (m ! : 𝕜) * sMat c m p q)
    (fun p q => Finset.sum_congr rfl fun m _ => by rw [sMat_comm]) hM]
  have := evK_sum (Finset.range J) B Z (fun m p q => 1 / (m ! : 𝕜) * sMat c m p q)
  rw [this]
  unfold dtaylor
  exact Finset.sum_congr rfl fun m _ => by rw [evK_smul, evK_sMat c B h]

theorem evC_comm (B : SqMat 𝕜 k) (v : Coef 𝕜 k) (m : ℕ) : B ^ m * evC B v = evC B v * B ^ m := by
  unfold evC
  rw [Finset.mul_sum, Finset.sum_mul]
  exact Finset.sum_congr rfl fun i _ => by rw [mul_smul_comm, smul_mul_assoc, ← pow_add, ← pow_add, add_comm m]

theorem evK_square (c : Fin (k + 2) → 𝕜) (B : SqMat 𝕜 k) (h : IsCharpoly c B) (Z : SqMat 𝕜 k) (t : Coef 𝕜 k × SqMat 𝕜 k × SqMat 𝕜 k) :
    evK B (symU (chKSquare c t).2.1) Z =
      (1 / 2 : 𝕜) • (evK B (symU t.2.1) Z * evC B t.1 + evC B t.1 * evK B (symU t.2.1) Z) := by
  obtain ⟨-, h2⟩ := chKSquare_eq c t
  obtain ⟨al, M, H⟩ := t
  dsimp only at h2 ⊢
  rw [symU_eq _ (fun p q => ∑ l : Fin (k + 1), ((1 / 2 : 𝕜) * symU M p l * (mulX c)^[l.val] al q + (1 / 2 : 𝕜) * symU M l q * (mulX c)^[l.val] al p))
    (fun p q => Finset.sum_congr rfl fun l _ => by rw [symU_comm M p l, symU_comm M l q]; ring) h2]
  have e0 := evK_sum Finset.univ B Z (fun (l : Fin (k + 1)) p q =>
    ((1 / 2 : 𝕜) * symU M p l * (mulX c)^[l.val] al q + (1 / 2 : 𝕜) * symU M l q * (mulX c)^[l.val] al p))
  rw [e0]
  have e1 : ∀ l : Fin (k + 1), evK B (Matrix.of fun p q =>
      ((1 / 2 : 𝕜) * symU M p l * (mulX c)^[l.val] al q + (1 / 2 : 𝕜) * symU M l q * (mulX c)^[l.val] al p)) Z =
      (1 / 2 : 𝕜) • (evC B (fun p => symU M p l) * Z * (B ^ l.val * evC B al) + B ^ l.val * evC B al * Z * evC B (fun q => symU M l q)) := by
    intro l
    rw [← evC_iterate c B h, ← evK_tensor, ← evK_tensor]
    unfold evK
    rw [← Finset.sum_add_distrib, Finset.smul_sum]
    refine Finset.sum_congr rfl fun p _ => ?_
    rw [← Finset.sum_add_distrib, Finset.smul_sum]
    refine Finset.sum_congr rfl fun q _ => ?_
    rw [← add_smul, smul_smul]
    congr 1
    simp only [Matrix.of_apply]
    ring
  rw [Finset.sum_congr rfl fun l _ => e1 l, ← Finset.smul_sum, Finset.sum_add_distrib]
  congr 2
  · unfold evK
    rw [Finset.sum_comm, Finset.sum_mul]
    refine Finset.sum_congr rfl fun l _ => ?_
    rw [← mul_assoc]
    congr 1
    unfold evC
    rw [Finset.sum_mul, Finset.sum_mul]
    exact Finset.sum_congr rfl fun i _ => by rw [smul_mul_assoc, smul_mul_assoc]
  · unfold evK
    rw [Finset.mul_sum]
    refine Finset.sum_congr rfl fun l _ => ?_
    rw [evC_comm, mul_assoc, mul_assoc]
    congr 1
    unfold evC
    rw [Finset.mul_sum, Finset.mul_sum]
    exact Finset.sum_congr rfl fun i _ => by rw [mul_smul_comm, mul_smul_comm, mul_assoc]

end Hila
