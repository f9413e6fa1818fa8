import Verif.Lemmas.ChExpUse

/-!
# Results of the Cayley-Hamilton exponential
-/

namespace Hila

open scoped Nat

variable {𝕜 : Type} [RCLike 𝕜] {k : ℕ}

/-- The result of `chexp` and the way its loop ended. -/
theorem chexp_res (hk : 1 ≤ k) (add : ℝ → ℝ → ℝ) (junk : Fin (k + 1) → SqMat 𝕜 k) (A : SqMat 𝕜 k) :
    ∃ J ret, chexp add junk A = some (taylor (scaled A) J ^ 2 ^ scaleCount A, if scaleCount A = 0 then ret else k + 1) ∧
      ((J = 25 * (k + 1) ∧ ret = J) ∨ (k + 1 < J ∧ J ≤ 25 * (k + 1) ∧ ret + 1 = J ∧
        ∃ c, IsCharpoly c (scaled A) ∧ ∃ t, add t (passTerm c (J - 1)) = t)) := by
  have h : 1 < k + 1 := by omega
  obtain ⟨pl, h1, h2⟩ := chPowers_eq h junk (scaled A)
  have hc := chPoly_eq h pl (scaled A) h2
  obtain ⟨J, h3, h4⟩ := chLoop_spec add (chPoly h pl) (25 * (k + 1) - (k + 1)) (k + 1) (by omega) _ (chInit_inv add (chPoly h pl))
  refine ⟨J, (chLoop add (chPoly h pl) (25 * (k + 1) - (k + 1)) (k + 1) (chInit add)).2, ?_, ?_⟩
  · unfold chexp
    rw [dif_pos h, h1]
    simp only [Option.map_some]
    rw [chOut_eq _ pl (scaled A) h2, evC_squares _ _ hc, h3.al, evC_coefT _ _ hc]
  · rcases h4 with ⟨h5, h6⟩ | ⟨h5, h6, h7, h8⟩
    · exact Or.inl ⟨by omega, h6⟩
    · exact Or.inr ⟨h5, by omega, h7, _, hc, h8⟩

/-- The result of `chexpk`. -/
theorem chexpk_res (hk : 1 ≤ k) (add : ℝ → ℝ → ℝ) (junk : Fin (k + 1) → SqMat 𝕜 k) (A : SqMat 𝕜 k) :
    ∃ J J' K, chexpk add junk A = some (taylor (scaled A) J ^ 2 ^ scaleCount A, K) ∧ k + 1 ≤ J ∧ J ≤ 25 * (k + 1) ∧
      (J' = J ∨ (J' = J + 1 ∧ J = 25 * (k + 1))) ∧
      ∀ Z, evK (scaled A) (symU K) Z = (1 / 2 : 𝕜) ^ scaleCount A • dpow (taylor (scaled A) J) (dtaylor (scaled A) Z J') (2 ^ scaleCount A) := by
  have h : 1 < k + 1 := by omega
  obtain ⟨pl, h1, h2⟩ := chPowers_eq h junk (scaled A)
  have hc := chPoly_eq h pl (scaled A) h2
  obtain ⟨J, h3, h4, h5, J', h6, h7⟩ := chKLoop_spec add (chPoly h pl) (25 * (k + 1) - (k + 1)) (k + 1) (by omega) _ (kInit_inv add (chPoly h pl))
  refine ⟨J, J', ((chKSquare (chPoly h pl))^[scaleCount A]
      ((chKLoop add (chPoly h pl) (25 * (k + 1) - (k + 1)) (k + 1) ⟨chInit add, kInit, khInit⟩).1.al,
       (chKLoop add (chPoly h pl) (25 * (k + 1) - (k + 1)) (k + 1) ⟨chInit add, kInit, khInit⟩).1.kmats,
       (chKLoop add (chPoly h pl) (25 * (k + 1) - (k + 1)) (k + 1) ⟨chInit add, kInit, khInit⟩).1.kh)).2.1, ?_, h3, by omega, by omega, ?_⟩
  · unfold chexpk
    rw [dif_pos h, h1]
    simp only [Option.map_some]
    rw [chOut_eq _ pl (scaled A) h2, chKSquare_iterate_al, evC_squares _ _ hc, h5, evC_coefT _ _ hc]
  · intro Z
    rw [evK_squares _ _ hc, evK_loop _ _ hc Z _ J' h7]
    simp only
    rw [h5, evC_coefT _ _ hc]

/-! ### Bounds -/

theorem matNorm_dpow (B Z : SqMat 𝕜 k) (m : ℕ) : matNorm (dpow B Z (m + 1)) ≤ (m + 1) * (matNorm B ^ m * matNorm Z) := by
  unfold dpow
  refine (matNorm_sum _ _).trans ?_
  have : ∀ a ∈ Finset.range (m + 1), matNorm (B ^ a * Z * B ^ (m + 1 - 1 - a)) ≤ matNorm B ^ m * matNorm Z := by
    intro a ha
    have ha' := Finset.mem_range.1 ha
    refine (matNorm_mul_pow _ _ _).trans ?_
    refine (mul_le_mul_of_nonneg_right (matNorm_pow_mul B Z a) (pow_nonneg (matNorm_nonneg B) _)).trans_eq ?_
    rw [mul_right_comm, ← pow_add, show a + (m + 1 - 1 - a) = m by omega]
  refine (Finset.sum_le_sum this).trans_eq ?_
  rw [Finset.sum_const, Finset.card_range, nsmul_eq_mul]
  push_cast
  ring

theorem taylor_pow_mul_le (B M : SqMat 𝕜 k) (J m : ℕ) : matNorm (taylor B J ^ m * M) ≤ Real.exp (matNorm B) ^ m * matNorm M := by
  induction m with
  | zero => simp
  | succ m ih =>
    rw [pow_succ', mul_assoc, pow_succ', mul_assoc]
    exact (taylor_mul_le B _ J).trans (mul_le_mul_of_nonneg_left ih (Real.exp_pos _).le)

theorem mul_taylor_pow_le (B M : SqMat 𝕜 k) (J m : ℕ) : matNorm (M * taylor B J ^ m) ≤ matNorm M * Real.exp (matNorm B) ^ m := by
  induction m with
  | zero => simp
  | succ m ih =>
    rw [pow_succ, ← mul_assoc, pow_succ, ← mul_assoc]
    exact (mul_taylor_le B _ J).trans (mul_le_mul_of_nonneg_right ih (Real.exp_pos _).le)

theorem dpow_add (B Z W : SqMat 𝕜 k) (m : ℕ) : dpow B (Z + W) m = dpow B Z m + dpow B W m := by
  unfold dpow
  rw [← Finset.sum_add_distrib]
  exact Finset.sum_congr rfl fun a _ => by rw [mul_add, add_mul]

/-- The derivative of the squared exponential changes little with the number of terms. -/
theorem dpow_taylor_le (B X : SqMat 𝕜 k) (J m : ℕ) :
    matNorm (dpow (taylor B J) X m) ≤ m * (Real.exp (m * matNorm B) * matNorm X) := by
  unfold dpow
  refine (matNorm_sum _ _).trans ?_
  have : ∀ a ∈ Finset.range m, matNorm (taylor B J ^ a * X * taylor B J ^ (m - 1 - a)) ≤ Real.exp (m * matNorm B) * matNorm X := by
    intro a ha
    have ha' := Finset.mem_range.1 ha
    refine (mul_taylor_pow_le _ _ _ _).trans ?_
    refine (mul_le_mul_of_nonneg_right (taylor_pow_mul_le B X J a) (by positivity)).trans ?_
    rw [mul_right_comm, ← pow_add, ← Real.exp_nat_mul]
    refine mul_le_mul_of_nonneg_right (Real.exp_le_exp.2 ?_) (matNorm_nonneg X)
    refine mul_le_mul_of_nonneg_right ?_ (matNorm_nonneg B)
    exact_mod_cast (by omega : a + (m - 1 - a) ≤ m)
  refine (Finset.sum_le_sum this).trans_eq ?_
  rw [Finset.sum_const, Finset.card_range, nsmul_eq_mul]

theorem dtaylor_step_le (B Z : SqMat 𝕜 k) (m : ℕ) :
    matNorm ((1 / ((m + 1) ! : 𝕜)) • dpow B Z (m + 1)) ≤ matNorm B ^ m / (m ! : ℝ) * matNorm Z := by
  rw [matNorm_smul, norm_inv_fac]
  refine (mul_le_mul_of_nonneg_left (matNorm_dpow B Z m) (by positivity)).trans_eq ?_
  rw [Nat.factorial_succ]
  push_cast
  have : (m ! : ℝ) ≠ 0 := by positivity
  have : (m : ℝ) + 1 ≠ 0 := by positivity
  field_simp

/-! ### `chsexp` -/

theorem chsRow_eq (c : Fin (k + 2) → 𝕜) (wpf rs : ℝ) (pal al : Coef 𝕜 k) : chsRow c wpf rs pal al = chRow c wpf rs pal al := by
  rw [chRow_eq]
  unfold chsRow
  dsimp only
  rw [Function.update_self]
  have h0 : -(pal (Fin.last k) * (rs : 𝕜)) * c 0 = (rs : 𝕜) * mulX c pal 0 := by
    unfold mulX
    rw [if_pos rfl, Fin.castSucc_zero]; ring
  rw [h0]
  have key := forUp_inv (n := k + 1) (lo := 1) (f := fun i (t : (Coef 𝕜 k × Coef 𝕜 k × ℝ) × 𝕜) =>
    ((Function.update t.1.1 i (t.2 - t.1.1 (Fin.last k) * c i.castSucc),
      Function.update t.1.2.1 i (t.1.2.1 i + (wpf : 𝕜) * (t.2 - t.1.1 (Fin.last k) * c i.castSucc)),
      t.1.2.2 + ‖t.2 - t.1.1 (Fin.last k) * c i.castSucc‖ ^ 2), t.1.1 i * (rs : 𝕜)))
    (s := ((Function.update (Function.update pal (Fin.last k) (pal (Fin.last k) * (rs : 𝕜))) 0 ((rs : 𝕜) * mulX c pal 0),
      Function.update al 0 (al 0 + (wpf : 𝕜) * ((rs : 𝕜) * mulX c pal 0)), ‖(rs : 𝕜) * mulX c pal 0‖ ^ 2),
      Function.update pal (Fin.last k) (pal (Fin.last k) * (rs : 𝕜)) 0 * (rs : 𝕜)))
    (fun m t => (∀ i : Fin (k + 1), t.1.1 i = if i.val < m then (rs : 𝕜) * mulX c pal i else if i = Fin.last k then pal (Fin.last k) * (rs : 𝕜) else pal i) ∧
      (∀ i : Fin (k + 1), t.1.2.1 i = if i.val < m then al i + (wpf : 𝕜) * ((rs : 𝕜) * mulX c pal i) else al i) ∧
      (t.1.2.2 = ∑ i : Fin (k + 1), if i.val < m then ‖(rs : 𝕜) * mulX c pal i‖ ^ 2 else 0) ∧
      ∀ h : m < k + 1, t.2 = pal (prv ⟨m, h⟩) * (rs : 𝕜)) (by omega) ?_ ?_
  · generalize forUp (k + 1) 1 _ _ = t at key ⊢
    obtain ⟨⟨a, b, d⟩, e⟩ := t
    obtain ⟨h1, h2, h3, -⟩ := key
    dsimp only at h1 h2 h3 ⊢
    refine Prod.ext (funext fun i => ?_) (Prod.ext (funext fun i => ?_) ?_)
    · show a i = _
      rw [h1, if_pos i.isLt]
    · show b i = _
      rw [h2, if_pos i.isLt]
    · show d = _
      rw [h3]
      exact Finset.sum_congr rfl fun i _ => by rw [if_pos i.isLt]
  · refine ⟨fun i => ?_, fun i => ?_, ?_, fun h => ?_⟩
    · dsimp only
      by_cases hi : i = 0
      · subst hi; rw [Function.update_self, if_pos (by simp)]
      · rw [Function.update_of_ne hi, if_neg (by have := one_le_val hi; omega)]
        by_cases hl : i = Fin.last k
        · subst hl; rw [Function.update_self, if_pos rfl]
        · rw [Function.update_of_ne hl, if_neg hl]
    · dsimp only
      by_cases hi : i = 0
      · subst hi; rw [Function.update_self, if_pos (by simp)]
      · rw [Function.update_of_ne hi, if_neg (by have := one_le_val hi; omega)]
    · dsimp only
      rw [Finset.sum_eq_single 0]
      · rw [if_pos (by simp)]
      · intro j _ hj
        rw [if_neg (by have := one_le_val hj; omega)]
      · simp
    · dsimp only
      have hne : (0 : Fin (k + 1)) ≠ Fin.last k := by rw [Ne, Fin.ext_iff]; simp; omega
      rw [Function.update_of_ne hne]
      rfl
  · rintro m hm hl ⟨⟨a, b, d⟩, e⟩ ⟨h1, h2, h3, h4⟩
    dsimp only at h1 h2 h3 h4 ⊢
    have hv : e - a (Fin.last k) * c (Fin.castSucc ⟨m, hm⟩) = (rs : 𝕜) * mulX c pal ⟨m, hm⟩ := by
      rw [h4 hm, h1, if_neg (by simp; omega), if_pos rfl]
      unfold mulX
      rw [if_neg (by rw [Fin.ext_iff]; simp; omega)]
      ring
    rw [hv]
    refine ⟨fun i => ?_, fun i => ?_, ?_, fun h => ?_⟩
    · by_cases hi : i = ⟨m, hm⟩
      · subst hi; rw [Function.update_self, if_pos (by simp)]
      · rw [Function.update_of_ne hi, h1]
        have hne : i.val ≠ m := fun h => hi (Fin.ext h)
        have hc : (i.val < m) ↔ (i.val < m + 1) := by omega
        simp only [hc]
    · by_cases hi : i = ⟨m, hm⟩
      · subst hi; rw [Function.update_self, if_pos (by simp), h2, if_neg (by simp)]
      · rw [Function.update_of_ne hi, h2]
        have hne : i.val ≠ m := fun h => hi (Fin.ext h)
        have hc : (i.val < m) ↔ (i.val < m + 1) := by omega
        simp only [hc]
    · rw [h3, sum_lt_succ _ m hm, add_comm]
    · rw [h1, if_neg (by simp), if_neg (by rw [Fin.ext_iff]; simp; omega)]
      rfl

theorem chsLoop_eq (add : ℝ → ℝ → ℝ) (c : Fin (k + 2) → 𝕜) (left j : ℕ) (st : ChState 𝕜 k) :
    chsLoop add c left j st = (chLoop add c left j st).1 := by
  induction left generalizing j st with
  | zero => rfl
  | succ left ih =>
    unfold chsLoop chLoop chPass
    dsimp only
    rw [chsRow_eq]
    generalize chRow c st.wpf st.rs st.pal st.al = t
    by_cases hs : Real.sqrt t.2.2 > 1
    · simp only [if_pos hs, mul_one]
      by_cases ht : st.twpf = add st.twpf (st.wpf * (Real.sqrt t.2.2 / (j + 1 : ℝ)))
      · rw [if_pos ht, if_pos ht]
      · rw [if_neg ht, if_neg ht, ih]
    · simp only [if_neg hs]
      by_cases ht : st.twpf = add st.twpf (st.wpf / (j + 1 : ℝ) * Real.sqrt t.2.2)
      · rw [if_pos ht, if_pos ht]
      · rw [if_neg ht, if_neg ht, ih]

theorem horner_eq (h : 1 < k + 1) (al : Coef 𝕜 k) (A : SqMat 𝕜 k) :
    forUp (k + 1) 2 (fun i B => B * A + Matrix.scalar _ (al ⟨k - i.val, by omega⟩))
      (al (Fin.last k) • A + Matrix.scalar _ (al ⟨k - 1, by omega⟩)) = evC A al := by
  have hscal : ∀ a : 𝕜, Matrix.scalar (Fin (k + 1)) a = a • (1 : SqMat 𝕜 k) := fun a => by
    rw [Matrix.smul_one_eq_diagonal]; rfl
  obtain ⟨a, ha⟩ : ∃ a : ℕ → 𝕜, a = fun j => if h : j < k + 1 then al ⟨j, h⟩ else 0 := ⟨_, rfl⟩
  have hal : ∀ j (h : j < k + 1), al ⟨j, h⟩ = a j := fun j h => by rw [ha]; simp only; rw [dif_pos h]
  have key := forUp_inv (n := k + 1) (lo := 2) (f := fun i (B : SqMat 𝕜 k) => B * A + Matrix.scalar _ (al ⟨k - i.val, by omega⟩))
    (s := al (Fin.last k) • A + Matrix.scalar _ (al ⟨k - 1, by omega⟩))
    (fun m M => M = ∑ j ∈ Finset.range m, a (k + 1 - m + j) • A ^ j) (by omega) ?_ ?_
  · rw [key]
    unfold evC
    rw [Finset.sum_range]
    exact Finset.sum_congr rfl fun i _ => by rw [show k + 1 - (k + 1) + i.val = i.val by omega, ← hal i.val i.isLt]
  · rw [Finset.sum_range_succ, Finset.sum_range_succ, Finset.sum_range_zero, hscal, hal (k - 1),
      show al (Fin.last k) = a k from hal k (by omega), show k + 1 - 2 + 0 = k - 1 by omega, show k + 1 - 2 + 1 = k by omega]
    simp [add_comm]
  · intro m hm hl M hM
    dsimp only
    rw [hM, hscal, hal, Finset.sum_range_succ' _ m, Finset.sum_mul]
    congr 1
    · refine Finset.sum_congr rfl fun j hj => ?_
      rw [smul_mul_assoc, ← pow_succ, show k + 1 - (m + 1) + (j + 1) = k + 1 - m + j by omega]
    · rw [show k + 1 - (m + 1) + 0 = k - m by omega, pow_zero]

/-- The result of `chsexp`. -/
theorem chsexp_res (hk : 1 ≤ k) (add : ℝ → ℝ → ℝ) (A : SqMat 𝕜 k) :
    ∃ J, k + 1 < J ∧ chsexp add A = some (evC A (coefT (leverrier A) J)) := by
  have h : 1 < k + 1 := by omega
  obtain ⟨J, h3, h4⟩ := chLoop_spec add (leverrier A) (25 * (k + 1) - (k + 1)) (k + 1) (by omega) _ (chInit_inv add (leverrier A))
  refine ⟨J, by omega, ?_⟩
  unfold chsexp
  rw [dif_pos h]
  dsimp only
  rw [chsLoop_eq, h3.al, horner_eq h]

theorem trace_nilpotent (A : SqMat 𝕜 k) (h : IsNilpotent A) : A.trace = 0 := (Matrix.isNilpotent_trace_of_isNilpotent h).eq_zero

theorem leverrier_nilpotent (A : SqMat 𝕜 k) (h : IsNilpotent A) : IsCharpoly (leverrier A) A := by
  have hp : A.charpoly = Polynomial.X ^ (k + 1) := by
    have := (Matrix.isNilpotent_charpoly_sub_pow_of_isNilpotent h).eq_zero
    rw [sub_eq_zero, Fintype.card_fin] at this
    exact this
  have key := forUp_inv (n := k + 2) (lo := 2) (f := fun l (t : SqMat 𝕜 k × 𝕜 × (Fin (k + 2) → 𝕜)) =>
    let B := A * (t.1 - Matrix.scalar _ t.2.1)
    let tc := B.trace / (l.val : 𝕜)
    (B, tc, Function.update t.2.2 ⟨k + 1 - l.val, by omega⟩ tc))
    (s := (A, A.trace, Function.update (Function.update (0 : Fin (k + 2) → 𝕜) (Fin.last (k + 1)) 1) ⟨k, by omega⟩ A.trace))
    (fun m t => IsNilpotent t.1 ∧ Commute A t.1 ∧ t.2.1 = 0 ∧ t.2.2 = Function.update (0 : Fin (k + 2) → 𝕜) (Fin.last (k + 1)) 1) (by omega) ?_ ?_
  · intro i
    have e : leverrier A = Function.update (0 : Fin (k + 2) → 𝕜) (Fin.last (k + 1)) 1 := key.2.2.2
    rw [e, hp, Polynomial.coeff_X_pow]
    by_cases hi : i = Fin.last (k + 1)
    · subst hi; rw [Function.update_self]; simp
    · rw [Function.update_of_ne hi, if_neg (show ¬ i.val = k + 1 from fun h => hi (Fin.ext h))]; rfl
  · refine ⟨h, Commute.refl A, trace_nilpotent A h, ?_⟩
    dsimp only
    rw [trace_nilpotent A h, Function.update_eq_self_iff]
    rw [Function.update_of_ne (by rw [Ne, Fin.ext_iff]; simp)]
    rfl
  · rintro m hm hl ⟨B, t, v⟩ ⟨h1, h2, h3, h4⟩
    dsimp only at h1 h2 h3 h4 ⊢
    have e : A * (B - Matrix.scalar _ t) = A * B := by rw [h3]; simp
    rw [e]
    have hn : IsNilpotent (A * B) := Commute.isNilpotent_mul_left h2 h1
    have ht := trace_nilpotent _ hn
    refine ⟨hn, (Commute.refl A).mul_right h2, by rw [ht, zero_div], ?_⟩
    rw [ht, zero_div, h4, Function.update_eq_self_iff]
    rw [Function.update_of_ne (by rw [Ne, Fin.ext_iff]; simp; omega)]
    rfl

end Hila
