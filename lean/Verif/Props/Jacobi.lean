import Verif.Lemmas.Jacobi
import Mathlib.Analysis.Complex.Basic

/-!
# C53, C54: eigenvectors of hermitean matrices and singular values

The specification is in terms of Mathlib's matrix product and conjugate transpose.
-/

namespace Hila

set_option linter.unusedSectionVars false

variable {𝕜 : Type} [RCLike 𝕜] {n : ℕ}

/-! ### Eigenvectors -/

/-- What holds between the rotations: `V` is unitary and `M = V† H V`. -/
structure EigInv (H : Matrix (Fin n) (Fin n) 𝕜) (s : EigState 𝕜 n) : Prop where
  uni : s.v.conjTranspose * s.v = 1
  mat : s.m = s.v.conjTranspose * H * s.v
  ev : ∀ i, s.ev i = RCLike.re (s.m i i)

theorem EigInv.herm {H : Matrix (Fin n) (Fin n) 𝕜} (hH : H.IsHermitian) {s : EigState 𝕜 n} (h : EigInv H s) : s.m.IsHermitian := by
  rw [h.mat]
  exact Matrix.isHermitian_conjTranspose_mul_mul _ hH

theorem setE_zero {M : Matrix (Fin n) (Fin n) 𝕜} {p q : Fin n} (h : M p q = 0) : setE M p q 0 = M := by
  ext i j
  rw [setE_apply]
  split_ifs with hh
  · rw [hh.1, hh.2, h]
  · rfl

theorem eigen_rotate {H : Matrix (Fin n) (Fin n) 𝕜} (hH : H.IsHermitian) {s : EigState 𝕜 n} (h : EigInv H s) {p q : Fin n}
    (hpq : p ≠ q) (h0 : s.m p q ≠ 0) :
    ∃ g, diag2 (s.ev p) (s.ev q) (s.m p q) = some g ∧ EigInv H (s.rotate g p q) ∧
      offSq (s.rotate g p q).m = offSq s.m - 2 * RCLike.normSq (s.m p q) := by
  have hM := h.herm hH
  obtain ⟨g, hg, hU, hz, hd, ho⟩ := rotate_herm s.m hM hpq h0
  rw [h.ev p, h.ev q]
  obtain ⟨M', hM'⟩ : ∃ M', M' = (g.mat p q).conjTranspose * s.m * g.mat p q := ⟨_, rfl⟩
  have e : g.right (g.dagger.left s.m p q) p q = M' := by
    rw [Givens.right_eq, Givens.left_eq _ _ hpq, hM']
  rw [← hM'] at hz hd ho
  have hM'h : M'.IsHermitian := by rw [hM']; exact Matrix.isHermitian_conjTranspose_mul_mul _ hM
  have hz' : M' q p = 0 := by rw [← hM'h.apply q p, hz, star_zero]
  have em : (s.rotate g p q).m = M' := by
    unfold EigState.rotate
    dsimp only
    rw [e, setE_zero hz, setE_zero hz']
  refine ⟨g, hg, ⟨?_, ?_, ?_⟩, by rw [em, ho]⟩
  · show (g.right s.v p q).conjTranspose * g.right s.v p q = 1
    rw [Givens.right_eq, Matrix.conjTranspose_mul]
    calc (g.mat p q).conjTranspose * s.v.conjTranspose * (s.v * g.mat p q)
        = (g.mat p q).conjTranspose * (s.v.conjTranspose * s.v) * g.mat p q := by simp only [Matrix.mul_assoc]
      _ = 1 := by rw [h.uni, Matrix.mul_one, hU]
  · rw [em]
    show M' = (g.right s.v p q).conjTranspose * H * g.right s.v p q
    rw [Givens.right_eq, Matrix.conjTranspose_mul, hM', h.mat]
    simp only [Matrix.mul_assoc]
  · intro i
    rw [em]
    show Function.update (Function.update s.ev p (RCLike.re (g.right (g.dagger.left s.m p q) p q p p))) q
      (RCLike.re (g.right (g.dagger.left s.m p q) p q q q)) i = _
    rw [e]
    by_cases hq : i = q
    · rw [hq, Function.update_self]
    · rw [Function.update_of_ne hq]
      by_cases hp : i = p
      · rw [hp, Function.update_self]
      · rw [Function.update_of_ne hp, h.ev i, hd i hp hq]

/-- The loop: the matrix is diagonal up to the tolerance, or the part outside the diagonal has been reduced by a factor in each of
the `k` rotations. -/
theorem eigenLoop_run (hn : 2 ≤ n) {H : Matrix (Fin n) (Fin n) 𝕜} (hH : H.IsHermitian) : ∀ (k : ℕ) (s : EigState 𝕜 n), EigInv H s →
    ∃ s' rot, eigenLoop k s = some (s', rot) ∧ rot ≤ k ∧ EigInv H s' ∧
      ((∃ p q, p ≠ q ∧ ∀ i j, i ≠ j → ‖s'.m i j‖ ≤ jacobiEps * Real.sqrt (|s'.ev p| * |s'.ev q|)) ∨
        rot = k ∧ offSq s'.m ≤ (1 - 2 / (n * n - n : ℝ)) ^ k * offSq s.m) := by
  intro k
  induction k with
  | zero =>
    intro s hs
    exact ⟨s, 0, rfl, le_rfl, hs, Or.inr ⟨rfl, by rw [pow_zero, one_mul]⟩⟩
  | succ k ih =>
    intro s hs
    have hM := hs.herm hH
    obtain ⟨p, q, hl, hpq, hmax⟩ := largestOff_run hn s.m
    rw [eigenLoop, hl, Option.bind_some]
    dsimp only
    have hN : (0 : ℝ) < n * n - n := by
      have : (2 : ℝ) ≤ n := by exact_mod_cast hn
      nlinarith
    by_cases hc : ‖s.m p q‖ ≤ jacobiEps * Real.sqrt (|s.ev p| * |s.ev q|)
    · rw [if_pos hc]
      refine ⟨s, 0, rfl, Nat.zero_le _, hs, Or.inl ⟨p, q, hpq.ne, fun i j hij => ?_⟩⟩
      refine le_trans ?_ hc
      have key : ∀ i j, i < j → ‖s.m i j‖ ≤ ‖s.m p q‖ := by
        intro i j hij
        have := hmax i j hij
        rw [RCLike.normSq_eq_def', RCLike.normSq_eq_def'] at this
        exact (sq_le_sq₀ (norm_nonneg _) (norm_nonneg _)).1 this
      rcases lt_or_gt_of_ne hij with h | h
      · exact key i j h
      · rw [← hM.apply i j, norm_star]
        exact key j i h
    · rw [if_neg hc]
      have h0 : s.m p q ≠ 0 := by
        intro e
        apply hc
        rw [e, norm_zero]
        unfold jacobiEps
        positivity
      obtain ⟨g, hg, hI, ho⟩ := eigen_rotate hH hs hpq.ne h0
      rw [hg, Option.bind_some]
      obtain ⟨s', rot, h1, h2, h3, h4⟩ := ih _ hI
      rw [h1, Option.map_some]
      refine ⟨s', rot + 1, rfl, by omega, h3, h4.imp id fun h => ⟨by rw [h.1], ?_⟩⟩
      have h5 : offSq (s.rotate g p q).m ≤ (1 - 2 / (n * n - n : ℝ)) * offSq s.m := by
        rw [ho]
        have := offSq_le s.m hM hmax
        have h6 : offSq s.m / (n * n - n) ≤ RCLike.normSq (s.m p q) := by
          rw [div_le_iff₀ hN]; linarith
        have h7 : 2 / (n * n - n : ℝ) * offSq s.m = 2 * (offSq s.m / (n * n - n)) := by ring
        rw [sub_mul, one_mul, h7]
        linarith
      have hr : 0 ≤ 1 - 2 / (n * n - n : ℝ) := by
        rw [sub_nonneg, div_le_one hN]
        have : (2 : ℝ) ≤ n := by exact_mod_cast hn
        nlinarith
      calc offSq s'.m ≤ (1 - 2 / (n * n - n : ℝ)) ^ k * offSq (s.rotate g p q).m := h.2
        _ ≤ (1 - 2 / (n * n - n : ℝ)) ^ k * ((1 - 2 / (n * n - n : ℝ)) * offSq s.m) :=
          mul_le_mul_of_nonneg_left h5 (pow_nonneg hr k)
        _ = _ := by rw [pow_succ, mul_assoc]

/-- After all rotations nothing is left outside the diagonal, up to `exp(-200)`. -/
theorem rot_factor (hn : 2 ≤ n) : (1 - 2 / (n * n - n : ℝ)) ^ (100 * n * n) ≤ Real.exp (-200) := by
  have h2 : (2 : ℝ) ≤ n := by exact_mod_cast hn
  have hN : (0 : ℝ) < n * n - n := by nlinarith
  have hr : 0 ≤ 1 - 2 / (n * n - n : ℝ) := by
    rw [sub_nonneg, div_le_one hN]
    nlinarith
  have h1 : 1 - 2 / (n * n - n : ℝ) ≤ Real.exp (-(2 / (n * n - n : ℝ))) := by
    have := Real.add_one_le_exp (-(2 / (n * n - n : ℝ)))
    linarith
  calc (1 - 2 / (n * n - n : ℝ)) ^ (100 * n * n) ≤ Real.exp (-(2 / (n * n - n : ℝ))) ^ (100 * n * n) := pow_le_pow_left₀ hr h1 _
    _ = Real.exp (((100 * n * n : ℕ) : ℝ) * -(2 / (n * n - n : ℝ))) := by rw [← Real.exp_nat_mul]
    _ ≤ Real.exp (-200) := by
      apply Real.exp_le_exp.2
      push_cast
      have : 100 * (n : ℝ) * n * (2 / (n * n - n)) ≥ 200 := by
        rw [ge_iff_le, ← mul_div_assoc, le_div_iff₀ hN]
        nlinarith
      linarith

/-- A matrix with its columns in another order, on both sides. -/
theorem permCols_mul (M H : Matrix (Fin n) (Fin n) 𝕜) (p : Fin n → Fin n) (i j : Fin n) :
    ((permCols M p).conjTranspose * H * permCols M p) i j = (M.conjTranspose * H * M) (p i) (p j) := by
  simp only [Matrix.mul_apply, permCols, Matrix.of_apply, Matrix.conjTranspose_apply]

/-- C53. For a hermitean matrix of size at least 2 `eigen_hermitean` returns a unitary matrix of eigenvectors and real
eigenvalues: `U† H U` has the eigenvalues on the diagonal, and outside of it elements below the tolerance relative to the
largest eigenvalue, or smaller than `exp(-100)` times the norm of the matrix. The eigenvalues come in the order that was asked
for. -/
theorem C53_eigen_partial (hn : 2 ≤ n) (H : Matrix (Fin n) (Fin n) 𝕜) (hH : H.IsHermitian) (o : SortOrder) :
    ∃ r, eigenHermitean H o = some r ∧ r.U.conjTranspose * r.U = 1 ∧ r.rot ≤ 100 * n * n ∧
      (∀ i, (r.U.conjTranspose * H * r.U) i i = (r.E i : 𝕜)) ∧
      (∀ B, (∀ k, |r.E k| ≤ B) → ∀ i j, i ≠ j → ‖(r.U.conjTranspose * H * r.U) i j‖ ≤
        max (2.22e-16 * B) (Real.exp (-100) * Real.sqrt (∑ k, ∑ l, ‖H k l‖ ^ 2))) ∧
      (o = .ascending → Monotone r.E) ∧ (o = .descending → Antitone r.E) := by
  obtain ⟨s, rot, h1, h2, h3, h4⟩ := eigenLoop_run hn hH (100 * n * n) ⟨H, 1, fun i => RCLike.re (H i i)⟩
    ⟨by rw [Matrix.conjTranspose_one, Matrix.mul_one], by rw [Matrix.conjTranspose_one, Matrix.one_mul, Matrix.mul_one], fun _ => rfl⟩
  have hM := h3.herm hH
  have hdiag : ∀ i, (s.v.conjTranspose * H * s.v) i i = (s.ev i : 𝕜) := by
    intro i
    rw [h3.ev i, ← h3.mat]
    exact (hM.coe_re_apply_self i).symm
  have hoff : ∀ B, (∀ k, |s.ev k| ≤ B) → ∀ i j, i ≠ j → ‖(s.v.conjTranspose * H * s.v) i j‖ ≤
      max (2.22e-16 * B) (Real.exp (-100) * Real.sqrt (∑ k, ∑ l, ‖H k l‖ ^ 2)) := by
    intro B hB i j hij
    rw [← h3.mat]
    rcases h4 with ⟨p, q, hpq, h⟩ | ⟨-, h⟩
    · refine le_max_of_le_left ((h i j hij).trans ?_)
      have hB0 : 0 ≤ B := (abs_nonneg _).trans (hB p)
      have : Real.sqrt (|s.ev p| * |s.ev q|) ≤ B := by
        rw [Real.sqrt_le_left hB0, sq]
        exact mul_le_mul (hB p) (hB q) (abs_nonneg _) hB0
      unfold jacobiEps
      exact mul_le_mul_of_nonneg_left this (by norm_num)
    · apply le_max_of_le_right
      have hf : offSq s.m ≤ Real.exp (-200) * ∑ k, ∑ l, ‖H k l‖ ^ 2 := by
        refine h.trans (mul_le_mul (rot_factor hn) ?_ (offSq_nonneg _) (Real.exp_pos _).le)
        refine (offSq_le_froSq H).trans (le_of_eq ?_)
        unfold froSq
        simp only [RCLike.normSq_eq_def']
      have hle := (le_offSq s.m hij).trans hf
      rw [RCLike.normSq_eq_def'] at hle
      have := Real.sqrt_le_sqrt hle
      rw [Real.sqrt_sq (norm_nonneg _), Real.sqrt_mul (Real.exp_pos _).le,
        show Real.exp (-200) = Real.exp (-100) ^ 2 from by rw [← Real.exp_nat_mul]; norm_num, Real.sqrt_sq (Real.exp_pos _).le] at this
      exact this
  unfold eigenHermitean
  rw [h1, Option.bind_some]
  have sorted : ∀ o : SortOrder, o ≠ .unsorted → ∃ r, ((sortPerm o s.ev).map fun p => (⟨s.ev ∘ p, permCols s.v p, rot⟩ : EigResult 𝕜 n)) = some r ∧
      r.U.conjTranspose * r.U = 1 ∧ r.rot ≤ 100 * n * n ∧
      (∀ i, (r.U.conjTranspose * H * r.U) i i = (r.E i : 𝕜)) ∧
      (∀ B, (∀ k, |r.E k| ≤ B) → ∀ i j, i ≠ j → ‖(r.U.conjTranspose * H * r.U) i j‖ ≤
        max (2.22e-16 * B) (Real.exp (-100) * Real.sqrt (∑ k, ∑ l, ‖H k l‖ ^ 2))) ∧
      ∀ a b : Fin n, a < b → ¬ o.wrong (r.E a) (r.E b) := by
    intro o ho
    obtain ⟨p, hp, hb, hs⟩ := sortPerm_run o ho s.ev
    rw [hp, Option.map_some]
    refine ⟨_, rfl, ?_, h2, ?_, ?_, hs⟩
    · dsimp only
      have := permCols_mul s.v (1 : Matrix (Fin n) (Fin n) 𝕜) p
      rw [Matrix.mul_one, Matrix.mul_one, h3.uni] at this
      ext i j
      rw [this i j, Matrix.one_apply, Matrix.one_apply]
      simp only [hb.1.eq_iff]
    · intro i
      dsimp only
      rw [permCols_mul, hdiag]; rfl
    · intro B hB i j hij
      dsimp only
      rw [permCols_mul]
      apply hoff B _ _ _ (fun e => hij (hb.1 e))
      intro k
      obtain ⟨k', rfl⟩ := hb.2 k
      exact hB k'
  cases o with
  | unsorted => exact ⟨_, rfl, h3.uni, h2, hdiag, hoff, fun h => (nomatch h), fun h => (nomatch h)⟩
  | ascending =>
    obtain ⟨r, k1, k2, k3, k4, k5, k6⟩ := sorted .ascending (fun h => nomatch h)
    refine ⟨r, k1, k2, k3, k4, k5, fun _ => ?_, fun h => (nomatch h)⟩
    intro a b hab
    rcases hab.lt_or_eq with h | h
    · exact not_lt.1 (k6 a b h)
    · rw [h]
  | descending =>
    obtain ⟨r, k1, k2, k3, k4, k5, k6⟩ := sorted .descending (fun h => nomatch h)
    refine ⟨r, k1, k2, k3, k4, k5, fun h => (nomatch h), fun _ => ?_⟩
    intro a b hab
    rcases hab.lt_or_eq with h | h
    · exact not_lt.1 (k6 a b h)
    · rw [h]

/-- C53. For a matrix of size 1 the search has no pair of rows: the indices have no value and are used. -/
theorem C53_size_one (H : Matrix (Fin 1) (Fin 1) 𝕜) (o : SortOrder) : eigenHermitean H o = none := by
  have h : ∀ M : Matrix (Fin 1) (Fin 1) 𝕜, largestOff M = none := by
    intro M
    unfold largestOff
    rw [forLoop, dif_neg (by omega), Option.bind_some, Option.map_none]
  unfold eigenHermitean
  rw [eigenLoop, h, Option.bind_none, Option.bind_none]

/-! ### Singular values -/

theorem colDot_eq (M : Matrix (Fin n) (Fin n) 𝕜) (i j : Fin n) : colDot M i j = (M.conjTranspose * M) i j := by
  simp only [colDot, Matrix.mul_apply, Matrix.conjTranspose_apply]

theorem colSq_eq (M : Matrix (Fin n) (Fin n) 𝕜) (i : Fin n) : ((colSq M i : ℝ) : 𝕜) = (M.conjTranspose * M) i i := by
  rw [← colDot_eq]
  unfold colSq colDot
  push_cast
  apply Finset.sum_congr rfl
  intro k _
  rw [RCLike.normSq_eq_def', mul_comm]
  push_cast
  rw [← RCLike.mul_conj]
  rfl

theorem colSq_nonneg (M : Matrix (Fin n) (Fin n) 𝕜) (i : Fin n) : 0 ≤ colSq M i := Finset.sum_nonneg fun _ _ => RCLike.normSq_nonneg _

theorem colSq_zero {M : Matrix (Fin n) (Fin n) 𝕜} {i : Fin n} (h : colSq M i = 0) (k : Fin n) : M k i = 0 :=
  RCLike.normSq_eq_zero.1 ((Finset.sum_eq_zero_iff_of_nonneg fun _ _ => RCLike.normSq_nonneg _).1 h k (Finset.mem_univ k))

/-- What is returned: `U S = A V` in some order of the columns. -/
theorem svdFinish_run (A M V : Matrix (Fin n) (Fin n) 𝕜) (rot : ℕ) (o : SortOrder) (hV : V.conjTranspose * V = 1) (hM : M = A * V)
    (h0 : ∀ i, colSq M i ≠ 0) :
    ∃ r, svdFinish M V rot o = some r ∧ r.rot = rot ∧ r.V.conjTranspose * r.V = 1 ∧
      A = r.U * Matrix.diagonal (fun i => (r.S i : 𝕜)) * r.V.conjTranspose ∧ (∀ i, 0 < r.S i) ∧
      (∀ i, (r.U.conjTranspose * r.U) i i = 1) ∧
      (∃ p : Fin n → Fin n, Function.Bijective p ∧ (∀ i, r.S i = Real.sqrt (colSq M (p i))) ∧
        ∀ i j, (r.U.conjTranspose * r.U) i j * (r.S i * r.S j) = (M.conjTranspose * M) (p i) (p j)) ∧
      (o = .ascending → Monotone r.S) ∧ (o = .descending → Antitone r.S) := by
  have hpos : ∀ i, 0 < Real.sqrt (colSq M i) := fun i => Real.sqrt_pos.2 (lt_of_le_of_ne (colSq_nonneg M i) (h0 i).symm)
  have hne : ∀ i, ((Real.sqrt (colSq M i) : ℝ) : 𝕜) ≠ 0 := fun i => RCLike.ofReal_ne_zero.2 (hpos i).ne'
  obtain ⟨s, h1, h2⟩ := forLoop_run (n := n) (hi := n)
    (fun t (s : Matrix (Fin n) (Fin n) 𝕜 × (Fin n → ℝ)) => ∀ j : Fin n, (j.val < t → s.2 j = Real.sqrt (colSq M j)) ∧
      ∀ k, s.1 k j = if j.val < t then M k j / ((Real.sqrt (colSq M j) : ℝ) : 𝕜) else M k j)
    (fun i (s : Matrix (Fin n) (Fin n) 𝕜 × (Fin n → ℝ)) =>
      let nr := Real.sqrt (colSq s.1 i)
      open Classical in
      if nr = 0 then none else some (Matrix.of fun k j => if j = i then s.1 k i / (nr : 𝕜) else s.1 k j, Function.update s.2 i nr)) le_rfl
    (by
      intro i s _ hs
      have e : colSq s.1 i = colSq M i := by
        unfold colSq
        apply Finset.sum_congr rfl
        intro k _
        rw [(hs i).2 k, if_neg (lt_irrefl _)]
      dsimp only
      rw [e, if_neg (hpos i).ne']
      refine ⟨_, rfl, fun j => ⟨fun hj => ?_, fun k => ?_⟩⟩
      · dsimp only
        by_cases hji : j = i
        · rw [hji, Function.update_self]
        · rw [Function.update_of_ne hji]
          exact (hs j).1 (lt_of_le_of_ne (by omega) fun e => hji (Fin.ext e))
      · dsimp only
        rw [Matrix.of_apply]
        by_cases hji : j = i
        · rw [if_pos hji, hji, if_pos (Nat.lt_succ_self _), (hs i).2 k, if_neg (lt_irrefl _)]
        · have : j.val ≠ i.val := fun e => hji (Fin.ext e)
          rw [if_neg hji, (hs j).2 k]
          by_cases hlt : j.val < i.val
          · rw [if_pos hlt, if_pos (by omega)]
          · rw [if_neg hlt, if_neg (by omega)]) 0 (M, fun _ => 0) (Nat.zero_le _)
    (fun j => ⟨fun h => absurd h (Nat.not_lt_zero _), fun k => by rw [if_neg (Nat.not_lt_zero _)]⟩)
  obtain ⟨S, hS⟩ : ∃ S : Fin n → ℝ, S = fun j => Real.sqrt (colSq M j) := ⟨_, rfl⟩
  obtain ⟨U, hU⟩ : ∃ U : Matrix (Fin n) (Fin n) 𝕜, U = Matrix.of fun k j => M k j / (S j : 𝕜) := ⟨_, rfl⟩
  have es : s = (U, S) := by
    rw [hU, hS]
    apply Prod.ext
    · ext k j
      rw [(h2 j).2 k, if_pos j.isLt]; rfl
    · funext j
      rw [(h2 j).1 j.isLt]
  have hUS : ∀ k j, U k j * (S j : 𝕜) = M k j := by
    intro k j
    rw [hU, Matrix.of_apply, hS]
    exact div_mul_cancel₀ _ (hne j)
  have hUU : ∀ i j, (U.conjTranspose * U) i j * (S i * S j) = (M.conjTranspose * M) i j := by
    intro i j
    rw [Matrix.mul_apply, Matrix.mul_apply, Finset.sum_mul]
    apply Finset.sum_congr rfl
    intro k _
    rw [Matrix.conjTranspose_apply, Matrix.conjTranspose_apply, ← hUS k i, ← hUS k j, star_mul', RCLike.star_def,
      RCLike.conj_ofReal]
    ring
  have hUd : ∀ i, (U.conjTranspose * U) i i = 1 := by
    intro i
    have := hUU i i
    rw [← colSq_eq M] at this
    have e : ((colSq M i : ℝ) : 𝕜) = (S i : 𝕜) * S i := by
      rw [hS]
      exact_mod_cast congrArg (fun x : ℝ => (x : 𝕜)) (Real.mul_self_sqrt (colSq_nonneg M i)).symm
    rw [e] at this
    have hz : (S i : 𝕜) * S i ≠ 0 := by rw [hS]; exact mul_ne_zero (hne i) (hne i)
    exact mul_right_cancel₀ hz (by rw [this, one_mul])
  have hV' : V * V.conjTranspose = 1 := mul_eq_one_comm.1 hV
  -- with the columns in the order of `p`
  have perm : ∀ p : Fin n → Fin n, Function.Bijective p → (permCols V p).conjTranspose * permCols V p = 1 ∧
      A = permCols U p * Matrix.diagonal (fun i => (S (p i) : 𝕜)) * (permCols V p).conjTranspose ∧ (∀ i, 0 < S (p i)) ∧
      (∀ i, ((permCols U p).conjTranspose * permCols U p) i i = 1) ∧ (∀ i, S (p i) = Real.sqrt (colSq M (p i))) ∧
        ∀ i j, ((permCols U p).conjTranspose * permCols U p) i j * (S (p i) * S (p j)) = (M.conjTranspose * M) (p i) (p j) := by
    intro p hp
    have pm : ∀ (W : Matrix (Fin n) (Fin n) 𝕜) i j, ((permCols W p).conjTranspose * permCols W p) i j = (W.conjTranspose * W) (p i) (p j) := by
      intro W i j
      have := permCols_mul W (1 : Matrix (Fin n) (Fin n) 𝕜) p i j
      rwa [Matrix.mul_one, Matrix.mul_one] at this
    refine ⟨?_, ?_, ?_, ?_, ?_, ?_⟩
    · ext i j
      rw [pm, hV, Matrix.one_apply, Matrix.one_apply]
      simp only [hp.1.eq_iff]
    · have : A = M * V.conjTranspose := by rw [hM, Matrix.mul_assoc, hV', Matrix.mul_one]
      rw [this]
      ext i j
      rw [Matrix.mul_apply, Matrix.mul_apply]
      rw [← Equiv.sum_comp (Equiv.ofBijective p hp)]
      apply Finset.sum_congr rfl
      intro k _
      rw [Matrix.mul_diagonal, Matrix.conjTranspose_apply, Matrix.conjTranspose_apply, Equiv.ofBijective_apply]
      simp only [permCols, Matrix.of_apply]
      rw [hUS]
    · intro i; rw [hS]; exact hpos _
    · intro i; rw [pm, hUd]
    · intro i; rw [hS]
    · intro i j; rw [pm, hUU]
  unfold svdFinish
  rw [h1, Option.bind_some, es]
  cases o with
  | unsorted =>
    obtain ⟨k1, k2, k3, k4, k5, k6⟩ := perm id Function.bijective_id
    exact ⟨_, rfl, rfl, k1, k2, k3, k4, ⟨id, Function.bijective_id, k5, k6⟩, fun h => (nomatch h), fun h => (nomatch h)⟩
  | ascending =>
    obtain ⟨p, hp, hb, hs⟩ := sortPerm_run .ascending (fun h => nomatch h) S
    obtain ⟨k1, k2, k3, k4, k5, k6⟩ := perm p hb
    dsimp only
    rw [hp, Option.map_some]
    refine ⟨_, rfl, rfl, k1, k2, k3, k4, ⟨p, hb, k5, k6⟩, fun _ => ?_, fun h => (nomatch h)⟩
    intro a b hab
    rcases hab.lt_or_eq with h | h
    · exact not_lt.1 (hs a b h)
    · rw [h]
  | descending =>
    obtain ⟨p, hp, hb, hs⟩ := sortPerm_run .descending (fun h => nomatch h) S
    obtain ⟨k1, k2, k3, k4, k5, k6⟩ := perm p hb
    dsimp only
    rw [hp, Option.map_some]
    refine ⟨_, rfl, rfl, k1, k2, k3, k4, ⟨p, hb, k5, k6⟩, fun h => (nomatch h), fun _ => ?_⟩
    intro a b hab
    rcases hab.lt_or_eq with h | h
    · exact not_lt.1 (hs a b h)
    · rw [h]

theorem svdFinish_rot {M V : Matrix (Fin n) (Fin n) 𝕜} {rot : ℕ} {o : SortOrder} {r : SvdResult 𝕜 n}
    (h : svdFinish M V rot o = some r) : r.rot = rot := by
  unfold svdFinish at h
  obtain ⟨s, -, h⟩ := Option.bind_eq_some_iff.1 h
  cases o with
  | unsorted => cases h; rfl
  | ascending => obtain ⟨p, -, h⟩ := Option.map_eq_some_iff.1 h; rw [← h]
  | descending => obtain ⟨p, -, h⟩ := Option.map_eq_some_iff.1 h; rw [← h]

/-- Rotations of the columns keep `V` unitary and `M = A V`. -/
theorem right_inv {A M V : Matrix (Fin n) (Fin n) 𝕜} {g : Givens 𝕜} {p q : Fin n} (hpq : p ≠ q) (hg : g.c ^ 2 + RCLike.normSq g.s = 1)
    (hV : V.conjTranspose * V = 1) (hM : M = A * V) :
    (g.right V p q).conjTranspose * g.right V p q = 1 ∧ g.right M p q = A * g.right V p q := by
  constructor
  · rw [Givens.right_eq, Matrix.conjTranspose_mul]
    calc (g.mat p q).conjTranspose * V.conjTranspose * (V * g.mat p q)
        = (g.mat p q).conjTranspose * (V.conjTranspose * V) * g.mat p q := by simp only [Matrix.mul_assoc]
      _ = 1 := by rw [hV, Matrix.mul_one, g.mat_unitary hpq hg]
  · rw [Givens.right_eq, Givens.right_eq, hM, Matrix.mul_assoc]

/-- What holds between the rotations of `svd_pivot`. -/
structure SvdInv (A : Matrix (Fin n) (Fin n) 𝕜) (s : SvdState 𝕜 n) : Prop where
  uni : s.v.conjTranspose * s.v = 1
  mat : s.m = A * s.v
  gram : s.b = s.m.conjTranspose * s.m

theorem SvdInv.herm {A : Matrix (Fin n) (Fin n) 𝕜} {s : SvdState 𝕜 n} (h : SvdInv A s) : s.b.IsHermitian := by
  rw [h.gram]; exact Matrix.isHermitian_conjTranspose_mul_self _

theorem svd_rotate {A : Matrix (Fin n) (Fin n) 𝕜} {s : SvdState 𝕜 n} (h : SvdInv A s) {p q : Fin n} (hpq : p ≠ q) (h0 : s.b p q ≠ 0) :
    ∃ g, diag2 (RCLike.re (s.b p p)) (RCLike.re (s.b q q)) (s.b p q) = some g ∧ SvdInv A (s.rotate g p q) ∧
      offSq (s.rotate g p q).b = offSq s.b - 2 * RCLike.normSq (s.b p q) := by
  obtain ⟨g, hg, hU, hz, hd, ho⟩ := rotate_herm s.b h.herm hpq h0
  obtain ⟨g', t, hg', h1, -⟩ := diag2_run (RCLike.re (s.b p p)) (RCLike.re (s.b q q)) (s.b p q) h0
  rw [hg] at hg'
  cases hg'
  obtain ⟨m', hm'⟩ : ∃ m', m' = g.right s.m p q := ⟨_, rfl⟩
  have hB : m'.conjTranspose * m' = (g.mat p q).conjTranspose * s.b * g.mat p q := by
    rw [hm', Givens.right_eq, Matrix.conjTranspose_mul, h.gram]
    simp only [Matrix.mul_assoc]
  have hBh : (m'.conjTranspose * m').IsHermitian := Matrix.isHermitian_conjTranspose_mul_self _
  have hfar : ∀ i j, i ≠ p → i ≠ q → j ≠ p → j ≠ q → (m'.conjTranspose * m') i j = s.b i j := by
    intro i j hip hiq hjp hjq
    rw [hB, ← Givens.left_eq _ _ hpq, ← Givens.right_eq]
    simp only [Givens.right, Givens.left, Matrix.of_apply, if_neg hip, if_neg hiq, if_neg hjp, if_neg hjq]
  rw [← hB] at hz ho
  have hz' : (m'.conjTranspose * m') q p = 0 := by rw [← hBh.apply q p, hz, star_zero]
  have eb : (s.rotate g p q).b = m'.conjTranspose * m' := by
    unfold SvdState.rotate
    dsimp only
    rw [← hm']
    ext i j
    rw [setE_apply]
    split_ifs with c1
    · rw [c1.1, c1.2, hz]
    rw [setE_apply]
    split_ifs with c2
    · rw [c2.1, c2.2, hz']
    simp only [gramUpdate, Matrix.of_apply, colDot_eq]
    by_cases hjq : j = q
    · have hip : i ≠ p := fun e => c1 ⟨e, hjq⟩
      rw [if_pos ⟨hjq, hip⟩, hjq, hBh.apply]
    · rw [if_neg (fun e => hjq e.1)]
      by_cases hiq : i = q
      · have hjp : j ≠ p := fun e => c2 ⟨hiq, e⟩
        rw [if_pos ⟨hiq, hjp⟩, hiq]
      · rw [if_neg (fun e => hiq e.1)]
        by_cases hjp : j = p
        · rw [if_pos ⟨hjp, hiq⟩, hjp, hBh.apply]
        · rw [if_neg (fun e => hjp e.1)]
          by_cases hip : i = p
          · rw [if_pos ⟨hip, hjq⟩, hip]
          · rw [if_neg (fun e => hip e.1), hfar i j hip hiq hjp hjq]
  obtain ⟨k1, k2⟩ := right_inv hpq h1 h.uni h.mat
  exact ⟨g, hg, ⟨k1, k2, by rw [eb, hm']; rfl⟩, by rw [eb, ho]⟩

theorem svdPivotLoop_run (hn : 2 ≤ n) {A : Matrix (Fin n) (Fin n) 𝕜} : ∀ (k : ℕ) (s : SvdState 𝕜 n), SvdInv A s →
    ∃ s' rot, svdPivotLoop k s = some (s', rot) ∧ rot ≤ k ∧ SvdInv A s' ∧
      ((∃ p q, p ≠ q ∧ ∀ i j, i ≠ j → ‖s'.b i j‖ ≤ jacobiEps * Real.sqrt |RCLike.re (s'.b p p) * RCLike.re (s'.b q q)|) ∨
        rot = k ∧ offSq s'.b ≤ (1 - 2 / (n * n - n : ℝ)) ^ k * offSq s.b) := by
  intro k
  induction k with
  | zero =>
    intro s hs
    exact ⟨s, 0, rfl, le_rfl, hs, Or.inr ⟨rfl, by rw [pow_zero, one_mul]⟩⟩
  | succ k ih =>
    intro s hs
    have hM := hs.herm
    obtain ⟨p, q, hl, hpq, hmax⟩ := largestOff_run hn s.b
    rw [svdPivotLoop, hl, Option.bind_some]
    dsimp only
    have hN : (0 : ℝ) < n * n - n := by
      have : (2 : ℝ) ≤ n := by exact_mod_cast hn
      nlinarith
    by_cases hc : ‖s.b p q‖ ≤ jacobiEps * Real.sqrt |RCLike.re (s.b p p) * RCLike.re (s.b q q)|
    · rw [if_pos hc]
      refine ⟨s, 0, rfl, Nat.zero_le _, hs, Or.inl ⟨p, q, hpq.ne, fun i j hij => ?_⟩⟩
      refine le_trans ?_ hc
      have key : ∀ i j, i < j → ‖s.b i j‖ ≤ ‖s.b p q‖ := by
        intro i j hij
        have := hmax i j hij
        rw [RCLike.normSq_eq_def', RCLike.normSq_eq_def'] at this
        exact (sq_le_sq₀ (norm_nonneg _) (norm_nonneg _)).1 this
      rcases lt_or_gt_of_ne hij with h | h
      · exact key i j h
      · rw [← hM.apply i j, norm_star]
        exact key j i h
    · rw [if_neg hc]
      have h0 : s.b p q ≠ 0 := by
        intro e
        apply hc
        rw [e, norm_zero]
        unfold jacobiEps
        positivity
      obtain ⟨g, hg, hI, ho⟩ := svd_rotate hs hpq.ne h0
      rw [hg, Option.bind_some]
      obtain ⟨s', rot, h1, h2, h3, h4⟩ := ih _ hI
      rw [h1, Option.map_some]
      refine ⟨s', rot + 1, rfl, by omega, h3, h4.imp id fun h => ⟨by rw [h.1], ?_⟩⟩
      have h5 : offSq (s.rotate g p q).b ≤ (1 - 2 / (n * n - n : ℝ)) * offSq s.b := by
        rw [ho]
        have := offSq_le s.b hM hmax
        have h6 : offSq s.b / (n * n - n) ≤ RCLike.normSq (s.b p q) := by
          rw [div_le_iff₀ hN]; linarith
        have h7 : 2 / (n * n - n : ℝ) * offSq s.b = 2 * (offSq s.b / (n * n - n)) := by ring
        rw [sub_mul, one_mul, h7]
        linarith
      have hr : 0 ≤ 1 - 2 / (n * n - n : ℝ) := by
        rw [sub_nonneg, div_le_one hN]
        have : (2 : ℝ) ≤ n := by exact_mod_cast hn
        nlinarith
      calc offSq s'.b ≤ (1 - 2 / (n * n - n : ℝ)) ^ k * offSq (s.rotate g p q).b := h.2
        _ ≤ (1 - 2 / (n * n - n : ℝ)) ^ k * ((1 - 2 / (n * n - n : ℝ)) * offSq s.b) :=
          mul_le_mul_of_nonneg_left h5 (pow_nonneg hr k)
        _ = _ := by rw [pow_succ, mul_assoc]

/-- The columns of a regular matrix times a unitary one do not vanish. -/
theorem cols_ne_zero {A V : Matrix (Fin n) (Fin n) 𝕜} (hA : A.det ≠ 0) (hV : V.conjTranspose * V = 1) (i : Fin n) :
    colSq (A * V) i ≠ 0 := by
  intro h
  have hd : (A * V).det = 0 := Matrix.det_eq_zero_of_column_eq_zero i (colSq_zero h)
  rw [Matrix.det_mul] at hd
  have hv : V.det ≠ 0 := by
    intro e
    have := congrArg Matrix.det hV
    rw [Matrix.det_mul, e, mul_zero, Matrix.det_one] at this
    exact zero_ne_one this
  exact (mul_ne_zero hA hv) hd

/-- C54. `svd_pivot` of a regular matrix of size at least 2: `A = U S V†` exactly, `V` is unitary, the singular values are
positive and in the order that was asked for, and the columns of `U` have norm 1. They are orthogonal up to a bound that is
relative to the largest singular value, not to those of the two columns. -/
theorem C54_svd_pivot_partial (hn : 2 ≤ n) (A : Matrix (Fin n) (Fin n) 𝕜) (hA : A.det ≠ 0) (o : SortOrder) :
    ∃ r, svdPivot A o = some r ∧ r.V.conjTranspose * r.V = 1 ∧
      A = r.U * Matrix.diagonal (fun i => (r.S i : 𝕜)) * r.V.conjTranspose ∧ (∀ i, 0 < r.S i) ∧
      (∀ i, (r.U.conjTranspose * r.U) i i = 1) ∧
      (∀ B, (∀ k, r.S k ≤ B) → ∀ i j, i ≠ j → ‖(r.U.conjTranspose * r.U) i j‖ * (r.S i * r.S j) ≤
        max (2.22e-16 * B ^ 2) (Real.exp (-100) * Real.sqrt (∑ k, ∑ l, ‖(A.conjTranspose * A) k l‖ ^ 2))) ∧
      (o = .ascending → Monotone r.S) ∧ (o = .descending → Antitone r.S) := by
  obtain ⟨s, rot, h1, h2, h3, h4⟩ := svdPivotLoop_run hn (A := A) (100 * (n * n)) ⟨A, 1, A.conjTranspose * A⟩
    ⟨by rw [Matrix.conjTranspose_one, Matrix.mul_one], by rw [Matrix.mul_one], rfl⟩
  have h0 : ∀ i, colSq s.m i ≠ 0 := by rw [h3.mat]; exact cols_ne_zero hA h3.uni
  obtain ⟨r, k1, k2, k3, k4, k5, k6, ⟨p, hp, k7, k8⟩, k9⟩ := svdFinish_run A s.m s.v rot o h3.uni h3.mat h0
  unfold svdPivot
  rw [h1, Option.bind_some, k1]
  refine ⟨r, rfl, k3, k4, k5, k6, ?_, k9⟩
  intro B hB i j hij
  have e : ‖(r.U.conjTranspose * r.U) i j‖ * (r.S i * r.S j) = ‖s.b (p i) (p j)‖ := by
    rw [h3.gram, ← k8 i j, norm_mul, norm_mul, RCLike.norm_ofReal, RCLike.norm_ofReal, abs_of_pos (k5 i), abs_of_pos (k5 j)]
  rw [e]
  have hpij : p i ≠ p j := fun e => hij (hp.1 e)
  rcases h4 with ⟨a, b, hab, h⟩ | ⟨-, h⟩
  · refine le_max_of_le_left ((h _ _ hpij).trans ?_)
    have hc : ∀ x, RCLike.re (s.b x x) = colSq s.m x := by
      intro x
      rw [h3.gram, ← colSq_eq, RCLike.ofReal_re]
    have hcB : ∀ x, colSq s.m x ≤ B ^ 2 := by
      intro x
      obtain ⟨y, rfl⟩ := hp.2 x
      have := hB y
      rw [k7 y, Real.sqrt_le_left ((k5 y).le.trans (hB y))] at this
      exact this
    have : Real.sqrt |RCLike.re (s.b a a) * RCLike.re (s.b b b)| ≤ B ^ 2 := by
      rw [hc, hc, Real.sqrt_le_left (sq_nonneg _), abs_of_nonneg (mul_nonneg (colSq_nonneg _ _) (colSq_nonneg _ _)), sq (B ^ 2)]
      exact mul_le_mul (hcB a) (hcB b) (colSq_nonneg _ _) (sq_nonneg _)
    unfold jacobiEps
    exact mul_le_mul_of_nonneg_left this (by norm_num)
  · apply le_max_of_le_right
    have hf : offSq s.b ≤ Real.exp (-200) * ∑ k, ∑ l, ‖(A.conjTranspose * A) k l‖ ^ 2 := by
      have := rot_factor hn
      rw [show 100 * n * n = 100 * (n * n) from by ring] at this
      refine h.trans (mul_le_mul this ?_ (offSq_nonneg _) (Real.exp_pos _).le)
      refine (offSq_le_froSq _).trans (le_of_eq ?_)
      unfold froSq
      simp only [RCLike.normSq_eq_def']
    have hle := (le_offSq s.b hpij).trans hf
    rw [RCLike.normSq_eq_def'] at hle
    have := Real.sqrt_le_sqrt hle
    rw [Real.sqrt_sq (norm_nonneg _), Real.sqrt_mul (Real.exp_pos _).le,
      show Real.exp (-200) = Real.exp (-100) ^ 2 from by rw [← Real.exp_nat_mul]; norm_num, Real.sqrt_sq (Real.exp_pos _).le] at this
    exact this

/-- Two columns are orthogonal to the tolerance. -/
def PairOK (m : Matrix (Fin n) (Fin n) 𝕜) (a b : Fin n) : Prop := ‖colDot m a b‖ ≤ jacobiEps * Real.sqrt (colSq m a * colSq m b)

/-- What holds in the loop over `q`: `t` is the next `q`. -/
structure PairInv (keep : Bool) (A : Matrix (Fin n) (Fin n) 𝕜) (rot0 : ℕ) (p t : ℕ) (s : SweepState 𝕜 n) : Prop where
  uni : s.v.conjTranspose * s.v = 1
  mat : s.m = A * s.v
  need : ∀ p' : Fin n, p'.val = p → s.needPP = false → s.colp = some (fun k => s.m k p') ∧ s.bpp = some (colSq s.m p')
  first : t = p + 1 → s.needPP = true
  ok : s.cont = false → ∀ a b : Fin n, a < b → (a.val < p ∨ a.val = p ∧ b.val < t) → PairOK s.m a b
  rot : rot0 ≤ s.rot
  rot' : s.cont = true → rot0 + 1 ≤ s.rot

theorem svdPair_run {keep : Bool} (hk : keep = true ∨ n ≤ 2) {A : Matrix (Fin n) (Fin n) 𝕜} {rot0 : ℕ} {p q : Fin n} (hpq : p < q)
    {s : SweepState 𝕜 n} (h : PairInv keep A rot0 p.val q.val s) :
    ∃ s', svdPair keep p q s = some s' ∧ PairInv keep A rot0 p.val (q.val + 1) s' := by
  have hpv : p.val < q.val := hpq
  have hc : (if s.needPP then some (fun k => s.m k p) else s.colp) = some (fun k => s.m k p) := by
    cases hn : s.needPP with
    | true => rfl
    | false => rw [if_neg (by simp)]; exact (h.need p rfl hn).1
  have hb : (if s.needPP then some (colSq s.m p) else if keep then s.bpp else none) = some (colSq s.m p) := by
    cases hn : s.needPP with
    | true => rfl
    | false =>
      rw [if_neg (by simp)]
      rcases hk with hk | hk
      · rw [hk, if_pos rfl]; exact (h.need p rfl hn).2
      · exfalso
        have := q.isLt
        rw [h.first (by omega)] at hn
        exact Bool.noConfusion hn
  unfold svdPair
  dsimp only
  rw [hc, hb, Option.bind_some, Option.bind_some]
  have hd : (∑ k, star (s.m k p) * s.m k q) = colDot s.m p q := rfl
  rw [hd]
  by_cases hgt : ‖colDot s.m p q‖ > jacobiEps * Real.sqrt (colSq s.m p * colSq s.m q)
  · rw [if_pos hgt]
    have h0 : colDot s.m p q ≠ 0 := by
      intro e
      rw [e, norm_zero] at hgt
      have : 0 ≤ jacobiEps * Real.sqrt (colSq s.m p * colSq s.m q) := by unfold jacobiEps; positivity
      linarith
    obtain ⟨g, t, hg, h1, -⟩ := diag2_run (colSq s.m p) (colSq s.m q) (colDot s.m p q) h0
    rw [hg, Option.map_some]
    obtain ⟨k1, k2⟩ := right_inv hpq.ne h1 h.uni h.mat
    exact ⟨_, rfl, ⟨k1, k2, fun _ _ hh => Bool.noConfusion hh, fun _ => rfl, fun hh => Bool.noConfusion hh,
      h.rot.trans (Nat.le_succ _), fun _ => Nat.succ_le_succ h.rot⟩⟩
  · rw [if_neg hgt]
    refine ⟨_, rfl, ⟨h.uni, h.mat, fun p' hp' _ => ?_, fun hh => ?_, fun hh a b hab hc => ?_, h.rot.trans (Nat.le_succ _),
      fun hh => (h.rot' hh).trans (Nat.le_succ _)⟩⟩
    · rw [Fin.ext hp']; exact ⟨rfl, rfl⟩
    · omega
    · dsimp only at hh ⊢
      rcases hc with hc | ⟨hc1, hc2⟩
      · exact h.ok hh a b hab (Or.inl hc)
      · by_cases hbq : b = q
        · rw [hbq, Fin.ext hc1]; exact not_lt.1 hgt
        · exact h.ok hh a b hab (Or.inr ⟨hc1, lt_of_le_of_ne (by omega) fun e => hbq (Fin.ext e)⟩)

theorem svdSweep_run {keep : Bool} (hk : keep = true ∨ n ≤ 2) {A : Matrix (Fin n) (Fin n) 𝕜} {s : SweepState 𝕜 n}
    (hu : s.v.conjTranspose * s.v = 1) (hm : s.m = A * s.v) :
    ∃ s', svdSweep keep s = some s' ∧ s'.v.conjTranspose * s'.v = 1 ∧ s'.m = A * s'.v ∧
      (s'.cont = false → ∀ a b : Fin n, a < b → PairOK s'.m a b) ∧ s.rot ≤ s'.rot ∧ (s'.cont = true → s.rot + 1 ≤ s'.rot) := by
  obtain ⟨s', h1, h2, h3, h4, h5, h6⟩ := forLoop_run (n := n) (hi := n - 1)
    (fun t (s' : SweepState 𝕜 n) => s'.v.conjTranspose * s'.v = 1 ∧ s'.m = A * s'.v ∧
      (s'.cont = false → ∀ a b : Fin n, a < b → a.val < t → PairOK s'.m a b) ∧ s.rot ≤ s'.rot ∧ (s'.cont = true → s.rot + 1 ≤ s'.rot))
    (fun p s => forLoop n n (svdPair keep p) (p.val + 1) { s with needPP := true, colp := none }) (by omega)
    (by
      rintro p s1 hp ⟨k1, k2, k3, k4, k5⟩
      obtain ⟨s2, hs2, hI⟩ := forLoop_run' (n := n) (hi := n) (fun t => PairInv keep A s.rot p.val t) (svdPair keep p) le_rfl (p.val + 1)
        (fun q s2 hq _ hI => svdPair_run hk (show p.val < q.val by omega) hI) { s1 with needPP := true, colp := none } (by omega)
        ⟨k1, k2, fun _ _ hh => Bool.noConfusion hh, fun _ => rfl, fun hh a b hab hc => k3 hh a b hab (by
          rcases hc with hc | ⟨hc1, hc2⟩
          · exact hc
          · have : a.val < b.val := hab
            omega), k4, k5⟩
      exact ⟨s2, hs2, hI.uni, hI.mat, fun hh a b hab ha => hI.ok hh a b hab (by have := b.isLt; omega), hI.rot, hI.rot'⟩)
    0 { s with cont := false } (Nat.zero_le _) ⟨hu, hm, fun _ a b _ h => absurd h (Nat.not_lt_zero _), le_rfl, fun h => Bool.noConfusion h⟩
  exact ⟨s', h1, h2, h3, fun hh a b hab => h4 hh a b hab (by have := b.isLt; have : a.val < b.val := hab; omega), h5, h6⟩

theorem svdLoop_run {keep : Bool} (hk : keep = true ∨ n ≤ 2) {A : Matrix (Fin n) (Fin n) 𝕜} : ∀ (k : ℕ) (s : SweepState 𝕜 n),
    s.v.conjTranspose * s.v = 1 → s.m = A * s.v → (s.cont = false → ∀ a b : Fin n, a < b → PairOK s.m a b) → 100 * (n * n) ≤ s.rot + k →
    ∃ s', svdLoop keep k s = some s' ∧ s'.v.conjTranspose * s'.v = 1 ∧ s'.m = A * s'.v ∧
      (s'.rot < 100 * (n * n) → ∀ a b : Fin n, a < b → PairOK s'.m a b) := by
  intro k
  induction k with
  | zero =>
    intro s h1 h2 h3 h4
    rw [svdLoop, if_neg (by simp; omega)]
    exact ⟨s, rfl, h1, h2, fun h => absurd h (by omega)⟩
  | succ k ih =>
    intro s h1 h2 h3 h4
    rw [svdLoop]
    by_cases hc : (s.cont && decide (s.rot < 100 * (n * n))) = true
    · rw [if_pos hc]
      obtain ⟨s', k1, k2, k3, k4, k5, k6⟩ := svdSweep_run (A := A) hk h1 h2
      rw [k1, Option.bind_some]
      by_cases hc' : s'.cont = true
      · exact ih s' k2 k3 k4 (by have := k6 hc'; omega)
      · -- the loop ends
        have hf : s'.cont = false := by simpa using hc'
        have : svdLoop keep k s' = some s' := by
          cases k <;> rw [svdLoop, if_neg (by rw [hf]; simp)]
        exact ⟨s', this, k2, k3, fun _ => k4 hf⟩
    · rw [if_neg hc]
      refine ⟨s, rfl, h1, h2, fun h => h3 ?_⟩
      simpa [h] using hc

/-- C54. `svd` of a regular matrix: `A = U S V†` exactly, `V` is unitary, the singular values are positive and in the order
that was asked for, the columns of `U` have norm 1, and if the limit of rotations was not reached they are orthogonal to the
tolerance. This is for sizes 1 and 2, or if `Bpp`, which has no value when it is used, happens to have the value of the
iteration before. -/
theorem C54_svd_partial (keep : Bool) (hk : keep = true ∨ n ≤ 2) (A : Matrix (Fin n) (Fin n) 𝕜) (hA : A.det ≠ 0) (o : SortOrder) :
    ∃ r, svd keep A o = some r ∧ r.V.conjTranspose * r.V = 1 ∧
      A = r.U * Matrix.diagonal (fun i => (r.S i : 𝕜)) * r.V.conjTranspose ∧ (∀ i, 0 < r.S i) ∧
      (∀ i, (r.U.conjTranspose * r.U) i i = 1) ∧
      (r.rot < 100 * (n * n) → ∀ i j, i ≠ j → ‖(r.U.conjTranspose * r.U) i j‖ ≤ 2.22e-16) ∧
      (o = .ascending → Monotone r.S) ∧ (o = .descending → Antitone r.S) := by
  obtain ⟨s, h1, h2, h3, h4⟩ := svdLoop_run hk (A := A) (100 * (n * n) + 1) ⟨A, 1, 0, true, true, none, none⟩
    (by rw [Matrix.conjTranspose_one, Matrix.mul_one]) (by rw [Matrix.mul_one]) (fun h => Bool.noConfusion h) (by dsimp only; omega)
  have h0 : ∀ i, colSq s.m i ≠ 0 := by rw [h3]; exact cols_ne_zero hA h2
  obtain ⟨r, k1, k2, k3, k4, k5, k6, ⟨p, hp, k7, k8⟩, k9⟩ := svdFinish_run A s.m s.v s.rot o h2 h3 h0
  unfold svd
  rw [h1, Option.bind_some, k1]
  refine ⟨r, rfl, k3, k4, k5, k6, ?_, k9⟩
  intro hr i j hij
  rw [k2] at hr
  have hpij : p i ≠ p j := fun e => hij (hp.1 e)
  have key : ∀ a b : Fin n, a ≠ b → ‖(s.m.conjTranspose * s.m) a b‖ ≤ jacobiEps * (Real.sqrt (colSq s.m a) * Real.sqrt (colSq s.m b)) := by
    intro a b hab
    rw [← Real.sqrt_mul (colSq_nonneg _ _)]
    rcases lt_or_gt_of_ne hab with h | h
    · have := h4 hr a b h
      rwa [PairOK, colDot_eq] at this
    · have := h4 hr b a h
      rw [PairOK, colDot_eq, mul_comm (colSq s.m b)] at this
      rwa [← (Matrix.isHermitian_conjTranspose_mul_self s.m).apply a b, norm_star]
  have e := congrArg norm (k8 i j)
  rw [norm_mul, norm_mul, RCLike.norm_ofReal, RCLike.norm_ofReal, abs_of_pos (k5 i), abs_of_pos (k5 j)] at e
  have := key (p i) (p j) hpij
  rw [← e, ← k7 i, ← k7 j] at this
  have := le_of_mul_le_mul_right this (mul_pos (k5 i) (k5 j))
  unfold jacobiEps at this
  exact this

/-- Partial correctness of loops. -/
theorem forLoop_pres {S : Type} {n hi : ℕ} {f : Fin n → S → Option S} {P : S → Prop} (hf : ∀ i s s', P s → f i s = some s' → P s') :
    ∀ (d lo : ℕ), hi - lo ≤ d → ∀ s s' : S, P s → forLoop n hi f lo s = some s' → P s' := by
  intro d
  induction d with
  | zero =>
    intro lo hd s s' hP h
    rw [forLoop, dif_neg (by omega)] at h
    cases h; exact hP
  | succ d ih =>
    intro lo hd s s' hP h
    rw [forLoop] at h
    split_ifs at h with hc
    · obtain ⟨s1, h1, h2⟩ := Option.bind_eq_some_iff.1 h
      exact ih (lo + 1) (by omega) s1 s' (hf _ _ _ hP h1) h2
    · cases h; exact hP

theorem svdPair_cont {keep : Bool} {p q : Fin n} {s s' : SweepState 𝕜 n} (hc : s.cont = true) (h : svdPair keep p q s = some s') :
    s'.cont = true := by
  unfold svdPair at h
  dsimp only at h
  obtain ⟨cp, -, h⟩ := Option.bind_eq_some_iff.1 h
  obtain ⟨bp, -, h⟩ := Option.bind_eq_some_iff.1 h
  by_cases hg : ‖∑ k, star (cp k) * s.m k q‖ > jacobiEps * Real.sqrt (bp * colSq s.m q)
  · rw [if_pos hg] at h
    obtain ⟨g, -, h⟩ := Option.map_eq_some_iff.1 h
    rw [← h]
  · rw [if_neg hg] at h
    cases h; exact hc

/-- Two columns that are orthogonal to the tolerance, then the next one: `Bpp` has no value. -/
theorem svdPair_two (hn : 3 ≤ n) (s : SweepState 𝕜 n) {s' : SweepState 𝕜 n}
    (h : forLoop n n (svdPair false ⟨0, by omega⟩) 1 { s with needPP := true, colp := none } = some s') : s'.cont = true := by
  rw [forLoop, dif_pos ⟨by omega, by omega⟩] at h
  obtain ⟨s1, h1, h2⟩ := Option.bind_eq_some_iff.1 h
  rw [forLoop, dif_pos ⟨by omega, by omega⟩] at h2
  obtain ⟨s2, h3, h4⟩ := Option.bind_eq_some_iff.1 h2
  have hc1 : s1.cont = true := by
    unfold svdPair at h1
    dsimp only at h1
    obtain ⟨cp, -, h1⟩ := Option.bind_eq_some_iff.1 h1
    obtain ⟨bp, -, h1⟩ := Option.bind_eq_some_iff.1 h1
    by_cases hg : ‖∑ k, star (cp k) * s.m k (⟨1, by omega⟩ : Fin n)‖ > jacobiEps * Real.sqrt (bp * colSq s.m (⟨1, by omega⟩ : Fin n))
    · rw [if_pos hg] at h1
      obtain ⟨g, -, h1⟩ := Option.map_eq_some_iff.1 h1
      rw [← h1]
    · rw [if_neg hg] at h1
      cases h1
      exfalso
      unfold svdPair at h3
      dsimp only at h3
      obtain ⟨cp, -, h3⟩ := Option.bind_eq_some_iff.1 h3
      simp at h3
  exact forLoop_pres (P := fun s : SweepState 𝕜 n => s.cont = true) (fun i s s' hc h => svdPair_cont hc h) _ _ le_rfl _ _
    (svdPair_cont hc1 h3) h4

theorem svdSweep_cont (hn : 3 ≤ n) {s s' : SweepState 𝕜 n} (h : svdSweep false s = some s') : s'.cont = true := by
  unfold svdSweep at h
  rw [forLoop, dif_pos ⟨by omega, by omega⟩] at h
  obtain ⟨s1, h1, h2⟩ := Option.bind_eq_some_iff.1 h
  refine forLoop_pres (P := fun s : SweepState 𝕜 n => s.cont = true) (fun p s s' hc h => ?_) _ _ le_rfl _ _ (svdPair_two hn _ h1) h2
  exact forLoop_pres (f := svdPair false p) (P := fun s : SweepState 𝕜 n => s.cont = true) (fun i s s' hc h => svdPair_cont hc h) _ _ le_rfl
    { s with needPP := true, colp := none } s' hc h

theorem svdLoop_cont (hn : 3 ≤ n) : ∀ (k : ℕ) (s s' : SweepState 𝕜 n), s.cont = true → svdLoop false k s = some s' →
    100 * (n * n) ≤ s'.rot := by
  intro k
  induction k with
  | zero =>
    intro s s' hc h
    rw [svdLoop] at h
    split_ifs at h with hh
    cases h
    rw [hc] at hh
    simpa using hh
  | succ k ih =>
    intro s s' hc h
    rw [svdLoop] at h
    split_ifs at h with hh
    · obtain ⟨s1, h1, h2⟩ := Option.bind_eq_some_iff.1 h
      exact ih s1 s' (svdSweep_cont hn h1) h2
    · cases h
      rw [hc] at hh
      simpa using hh

/-- C54. From size 3 on `svd` never ends by convergence with a defined result, for any matrix: a sweep without rotations uses
a variable without a value. -/
theorem C54_svd_never_converges (hn : 3 ≤ n) (A : Matrix (Fin n) (Fin n) 𝕜) (o : SortOrder) (r : SvdResult 𝕜 n)
    (h : svd false A o = some r) : 100 * (n * n) ≤ r.rot := by
  unfold svd at h
  obtain ⟨s, h1, h2⟩ := Option.bind_eq_some_iff.1 h
  rw [svdFinish_rot h2]
  exact svdLoop_cont hn _ _ _ rfl h1

/-- C54. It is undefined for every matrix whose first two columns are orthogonal. -/
theorem C54_svd_undefined (hn : 3 ≤ n) (A : Matrix (Fin n) (Fin n) 𝕜) (o : SortOrder)
    (hA : ∑ k, star (A k ⟨0, by omega⟩) * A k ⟨1, by omega⟩ = 0) : svd false A o = none := by
  have hs : svdSweep false (⟨A, 1, 0, true, true, none, none⟩ : SweepState 𝕜 n) = none := by
    unfold svdSweep
    rw [forLoop, dif_pos ⟨by omega, by omega⟩]
    have : forLoop n n (svdPair false ⟨0, by omega⟩) (0 + 1) (⟨A, 1, 0, false, true, none, none⟩ : SweepState 𝕜 n) = none := by
      rw [forLoop, dif_pos ⟨by omega, by omega⟩]
      have h1 : svdPair false ⟨0, by omega⟩ ⟨1, by omega⟩ (⟨A, 1, 0, false, true, none, none⟩ : SweepState 𝕜 n) =
          some ⟨A, 1, 1, false, false, some (fun k => A k ⟨0, by omega⟩), some (colSq A ⟨0, by omega⟩)⟩ := by
        unfold svdPair
        dsimp only
        rw [if_pos rfl, if_pos rfl, Option.bind_some, Option.bind_some, hA, norm_zero, if_neg]
        rw [gt_iff_lt, not_lt]
        unfold jacobiEps
        positivity
      rw [h1, Option.bind_some, forLoop, dif_pos ⟨by omega, by omega⟩]
      have h2 : ∀ q, svdPair false ⟨0, by omega⟩ q
          (⟨A, 1, 1, false, false, some (fun k => A k ⟨0, by omega⟩), some (colSq A ⟨0, by omega⟩)⟩ : SweepState 𝕜 n) = none := by
        intro q
        unfold svdPair
        simp
      rw [h2, Option.bind_none]
    rw [this, Option.bind_none]
  unfold svd
  rw [svdLoop, if_pos (by simp; omega)]
  rw [hs, Option.bind_none, Option.bind_none]

/-- A singular matrix. -/
theorem svdFinish_zero {M V : Matrix (Fin n) (Fin n) 𝕜} {rot : ℕ} {o : SortOrder} {i : Fin n} (h : ∀ k, M k i = 0) :
    svdFinish M V rot o = none := by
  unfold svdFinish
  rw [Option.bind_eq_none_iff]
  intro s hs
  exfalso
  have key : ∀ (d lo : ℕ), n - lo = d → lo ≤ i.val → ∀ s0 s : Matrix (Fin n) (Fin n) 𝕜 × (Fin n → ℝ), (∀ k, s0.1 k i = 0) →
      forLoop n n (fun i (s : Matrix (Fin n) (Fin n) 𝕜 × (Fin n → ℝ)) =>
        let nr := Real.sqrt (colSq s.1 i)
        open Classical in
        if nr = 0 then none else some (Matrix.of fun k j => if j = i then s.1 k i / (nr : 𝕜) else s.1 k j, Function.update s.2 i nr))
        lo s0 ≠ some s := by
    intro d
    induction d with
    | zero => intro lo hd hlo; have := i.isLt; omega
    | succ d ih =>
      intro lo hd hlo s0 s hz hh
      rw [forLoop, dif_pos ⟨by omega, by omega⟩] at hh
      obtain ⟨s1, h1, h2⟩ := Option.bind_eq_some_iff.1 hh
      by_cases hi : lo = i.val
      · subst hi
        have : colSq s0.1 i = 0 := Finset.sum_eq_zero fun k _ => by rw [hz k, RCLike.normSq_zero]
        simp [this] at h1
      · refine ih (lo + 1) (by omega) (by omega) s1 s ?_ h2
        dsimp only at h1
        split_ifs at h1
        cases h1
        intro k
        dsimp only
        rw [Matrix.of_apply, if_neg (fun e => hi (by rw [e])), hz k]
  exact key _ 0 rfl (Nat.zero_le _) _ s h hs

/-- The matrix of `C54_singular`. -/
def singM2 : Matrix (Fin 2) (Fin 2) 𝕜 := !![1, 0; 0, 0]

/-- C54. With a singular value 0 the column of `U` is divided by zero: `diag(1, 0)`. -/
theorem C54_singular (keep : Bool) (o : SortOrder) : svdPivot (!![1, 0; 0, 0] : Matrix (Fin 2) (Fin 2) 𝕜) o = none ∧
    svd keep (!![1, 0; 0, 0] : Matrix (Fin 2) (Fin 2) 𝕜) o = none := by
  have hz : ∀ k, (singM2 (𝕜 := 𝕜)) k 1 = 0 := by intro k; fin_cases k <;> simp [singM2]
  change svdPivot (singM2 (𝕜 := 𝕜)) o = none ∧ svd keep (singM2 (𝕜 := 𝕜)) o = none
  constructor
  · unfold svdPivot
    obtain ⟨p, q, hl, hpq, hmax⟩ := largestOff_run le_rfl ((singM2 (𝕜 := 𝕜)).conjTranspose * (singM2 (𝕜 := 𝕜)))
    have hq : q = 1 := by
      have : p.val < q.val := hpq
      have := q.isLt
      apply Fin.ext
      show q.val = 1
      omega
    rw [show 100 * (2 * 2) = 399 + 1 from rfl, svdPivotLoop, hl, Option.bind_some]
    dsimp only
    rw [if_pos, Option.bind_some]
    · exact svdFinish_zero hz
    · have : ((singM2 (𝕜 := 𝕜)).conjTranspose * (singM2 (𝕜 := 𝕜))) p q = 0 := by
        rw [hq, Matrix.mul_apply]
        exact Finset.sum_eq_zero fun k _ => by rw [hz k, mul_zero]
      rw [this, norm_zero]
      unfold jacobiEps
      positivity
  · unfold svd
    obtain ⟨g1, g2⟩ : ∃ s' : SweepState 𝕜 2, svdSweep keep (⟨(singM2 (𝕜 := 𝕜)), 1, 0, true, true, none, none⟩ : SweepState 𝕜 2) = some s' ∧
        s'.m = (singM2 (𝕜 := 𝕜)) ∧ s'.cont = false := by
      have h1 : svdPair keep (⟨0, by omega⟩ : Fin 2) ⟨1, by omega⟩ (⟨(singM2 (𝕜 := 𝕜)), 1, 0, false, true, none, none⟩ : SweepState 𝕜 2) =
          some ⟨(singM2 (𝕜 := 𝕜)), 1, 1, false, false, some (fun k => (singM2 (𝕜 := 𝕜)) k 0), some (colSq (singM2 (𝕜 := 𝕜)) 0)⟩ := by
        unfold svdPair
        dsimp only
        have e : (∑ k, star ((singM2 (𝕜 := 𝕜)) k ⟨0, by omega⟩) * (singM2 (𝕜 := 𝕜)) k ⟨1, by omega⟩) = 0 :=
          Finset.sum_eq_zero fun k _ => by rw [show (⟨1, by omega⟩ : Fin 2) = 1 from rfl, hz k, mul_zero]
        rw [if_pos rfl, if_pos rfl, Option.bind_some, Option.bind_some, e, norm_zero, if_neg]
        · rfl
        · rw [gt_iff_lt, not_lt]
          unfold jacobiEps
          positivity
      refine ⟨⟨(singM2 (𝕜 := 𝕜)), 1, 1, false, false, some (fun k => (singM2 (𝕜 := 𝕜)) k 0), some (colSq (singM2 (𝕜 := 𝕜)) 0)⟩, ?_, rfl, rfl⟩
      · unfold svdSweep
        rw [forLoop, dif_pos ⟨by omega, by omega⟩]
        dsimp only
        rw [forLoop, dif_pos ⟨by omega, by omega⟩]
        rw [h1, Option.bind_some, forLoop, dif_neg (by omega), Option.bind_some, forLoop, dif_neg (by omega)]
    rw [svdLoop, if_pos (by simp)]
    rw [g2.1, Option.bind_some]
    have : svdLoop keep (100 * (2 * 2)) g1 = some g1 := by
      rw [show 100 * (2 * 2) = 399 + 1 from rfl, svdLoop, if_neg (by rw [g2.2.2]; simp)]
    rw [this, Option.bind_some, g2.2.1]
    exact svdFinish_zero hz

/-- The matrix of `C54_pivot_not_unitary`. -/
noncomputable def gradedM : Matrix (Fin 3) (Fin 3) ℝ := !![1, 2e-16, 0; 0, 1, 1e-16; 0, 0, 1e-16]

theorem gradedM_entries : gradedM 0 0 = 1 ∧ gradedM 0 1 = 2e-16 ∧ gradedM 0 2 = 0 ∧ gradedM 1 0 = 0 ∧ gradedM 1 1 = 1 ∧ gradedM 1 2 = 1e-16 ∧
    gradedM 2 0 = 0 ∧ gradedM 2 1 = 0 ∧ gradedM 2 2 = 1e-16 := ⟨rfl, rfl, rfl, rfl, rfl, rfl, rfl, rfl, rfl⟩

theorem gradedM_gram (i j : Fin 3) : (gradedM.conjTranspose * gradedM) i j = gradedM 0 i * gradedM 0 j + gradedM 1 i * gradedM 1 j + gradedM 2 i * gradedM 2 j := by
  rw [Matrix.mul_apply, Fin.sum_univ_three]
  simp [Matrix.conjTranspose_apply]

/-- C54. `svd_pivot` compares only the largest element of the Gram matrix with the tolerance. For a regular matrix with very
different singular values it returns a `U` whose columns are far from orthogonal. -/
theorem C54_pivot_not_unitary : ∃ (A : Matrix (Fin 3) (Fin 3) ℝ) (r : SvdResult ℝ 3), A.det ≠ 0 ∧ svdPivot A .unsorted = some r ∧
    ∃ i j, i ≠ j ∧ 1 / 2 ≤ (r.U.conjTranspose * r.U) i j := by
  obtain ⟨e00, e01, e02, e10, e11, e12, e20, e21, e22⟩ := gradedM_entries
  have hdet : gradedM.det ≠ 0 := by
    rw [Matrix.det_fin_three, e00, e01, e02, e10, e11, e12, e20, e21, e22]; norm_num
  obtain ⟨p, q, hl, hpq, hmax⟩ := largestOff_run (by norm_num) (gradedM.conjTranspose * gradedM)
  have b01 : (gradedM.conjTranspose * gradedM) 0 1 = 2e-16 := by
    rw [gradedM_gram]; simp only [e00, e01, e02, e10, e11, e12, e20, e21, e22]; norm_num
  have b02 : (gradedM.conjTranspose * gradedM) 0 2 = 0 := by
    rw [gradedM_gram]; simp only [e00, e01, e02, e10, e11, e12, e20, e21, e22]; norm_num
  have b12 : (gradedM.conjTranspose * gradedM) 1 2 = 1e-16 := by
    rw [gradedM_gram]; simp only [e00, e01, e02, e10, e11, e12, e20, e21, e22]; norm_num
  have b00 : (gradedM.conjTranspose * gradedM) 0 0 = 1 := by
    rw [gradedM_gram]; simp only [e00, e01, e02, e10, e11, e12, e20, e21, e22]; norm_num
  have b11 : (gradedM.conjTranspose * gradedM) 1 1 = 1 + 4e-32 := by
    rw [gradedM_gram]; simp only [e00, e01, e02, e10, e11, e12, e20, e21, e22]; norm_num
  have hpq' : p = 0 ∧ q = 1 := by
    have h01 := hmax 0 1 (by decide)
    rw [b01] at h01
    by_contra hne
    have : p = 0 ∧ q = 2 ∨ p = 1 ∧ q = 2 := by
      revert hpq hne
      clear hl hmax h01
      revert p q
      decide
    rcases this with ⟨rfl, rfl⟩ | ⟨rfl, rfl⟩
    · rw [b02] at h01; norm_num [RCLike.normSq_apply] at h01
    · rw [b12] at h01; norm_num [RCLike.normSq_apply] at h01
  rw [hpq'.1, hpq'.2, b01] at hl
  have hloop : svdPivotLoop (100 * (3 * 3)) ⟨gradedM, 1, gradedM.conjTranspose * gradedM⟩ =
      some (⟨gradedM, 1, gradedM.conjTranspose * gradedM⟩, 0) := by
    rw [show 100 * (3 * 3) = 899 + 1 from rfl, svdPivotLoop, hl, Option.bind_some]
    dsimp only
    rw [if_pos]
    rw [b00, b11]
    have : 1 ≤ Real.sqrt |RCLike.re (1 : ℝ) * RCLike.re (1 + 4e-32 : ℝ)| := by
      rw [Real.one_le_sqrt]
      norm_num
    unfold jacobiEps
    rw [Real.norm_eq_abs, abs_of_pos (by norm_num)]
    linarith
  obtain ⟨r, k1, -, -, -, k5, k6, ⟨p', hp', k7, k8⟩, -⟩ := svdFinish_run gradedM gradedM 1 0 .unsorted
    (by rw [Matrix.conjTranspose_one, Matrix.mul_one]) (by rw [Matrix.mul_one])
    (fun i => by
      have := cols_ne_zero hdet (V := (1 : Matrix (Fin 3) (Fin 3) ℝ)) (by rw [Matrix.conjTranspose_one, Matrix.mul_one]) i
      rwa [Matrix.mul_one] at this)
  have b22 : (gradedM.conjTranspose * gradedM) 2 2 = 2e-32 := by
    rw [gradedM_gram]; simp only [e00, e01, e02, e10, e11, e12, e20, e21, e22]; norm_num
  obtain ⟨i, hi⟩ := hp'.2 1
  obtain ⟨j, hj⟩ := hp'.2 2
  refine ⟨gradedM, r, hdet, ?_, i, j, fun e => absurd (show (1 : Fin 3) = 2 by rw [← hi, ← hj, e]) (by decide), ?_⟩
  · unfold svdPivot
    rw [hloop, Option.bind_some]
    exact k1
  · have e := k8 i j
    have c1 : colSq gradedM 1 = 1 + 4e-32 := by
      have := colSq_eq gradedM 1
      rw [b11] at this
      simpa using this
    have c2 : colSq gradedM 2 = 2e-32 := by
      have := colSq_eq gradedM 2
      rw [b22] at this
      simpa using this
    rw [hi, hj, b12] at e
    have s1 : r.S i = Real.sqrt (1 + 4e-32) := by rw [k7 i, hi, c1]
    have s2 : r.S j = Real.sqrt 2e-32 := by rw [k7 j, hj, c2]
    have b : r.S i * r.S j ≤ 2e-16 := by
      rw [s1, s2, ← Real.sqrt_mul (by norm_num)]
      rw [Real.sqrt_le_left (by norm_num)]
      norm_num
    have hp := mul_pos (k5 i) (k5 j)
    by_contra hlt
    rw [not_le] at hlt
    have e' : (r.U.conjTranspose * r.U) i j * (r.S i * r.S j) = 1e-16 := e
    have := mul_lt_mul_of_pos_right hlt hp
    rw [e'] at this
    norm_num at this b ⊢
    linarith

/-- C54. For a 1×1 matrix there is no pair to pivot on: `svd_pivot` uses indices without a value. -/
theorem C54_pivot_size_one (A : Matrix (Fin 1) (Fin 1) 𝕜) (o : SortOrder) : svdPivot A o = none := by
  have h : ∀ M : Matrix (Fin 1) (Fin 1) 𝕜, largestOff M = none := by
    intro M
    unfold largestOff
    rw [forLoop, dif_neg (by omega), Option.bind_some, Option.map_none]
  unfold svdPivot
  rw [show 100 * (1 * 1) = 99 + 1 from rfl, svdPivotLoop, h, Option.bind_none, Option.bind_none]

/-! ### Examples -/

/-- A hermitean matrix with complex elements, all orders. -/
example : (!![1, Complex.I; -Complex.I, 3] : Matrix (Fin 2) (Fin 2) ℂ).IsHermitian := by
  ext i j
  fin_cases i <;> fin_cases j <;> simp [Matrix.conjTranspose_apply]

/-- Its eigenvalues come back in ascending order. -/
example : ∃ r, eigenHermitean (!![1, Complex.I; -Complex.I, 3] : Matrix (Fin 2) (Fin 2) ℂ) .ascending = some r ∧ r.E 0 ≤ r.E 1 := by
  obtain ⟨r, h1, -, -, -, -, h2, -⟩ := C53_eigen_partial (𝕜 := ℂ) le_rfl (!![1, Complex.I; -Complex.I, 3]) (by
    ext i j
    fin_cases i <;> fin_cases j <;> simp [Matrix.conjTranspose_apply]) .ascending
  exact ⟨r, h1, h2 rfl (by decide)⟩

/-- A regular matrix that is not normal. -/
example : (!![1, 2; 0, 1] : Matrix (Fin 2) (Fin 2) ℝ).det ≠ 0 := by norm_num [Matrix.det_fin_two]

/-- `svd` of it is defined whatever the uninitialised variable does. -/
example (keep : Bool) : ∃ r, svd keep (!![1, 2; 0, 1] : Matrix (Fin 2) (Fin 2) ℝ) .descending = some r ∧ r.S 1 ≤ r.S 0 := by
  obtain ⟨r, h1, -, -, -, -, -, -, h2⟩ := C54_svd_partial (𝕜 := ℝ) keep (Or.inr le_rfl) (!![1, 2; 0, 1]) (by norm_num [Matrix.det_fin_two]) .descending
  exact ⟨r, h1, h2 rfl (by decide)⟩

/-- `svd` of the 3×3 unit matrix uses a variable without a value. -/
example : svd false (1 : Matrix (Fin 3) (Fin 3) ℝ) .unsorted = none :=
  C54_svd_undefined le_rfl 1 .unsorted (by simp [Matrix.one_apply])

end Hila
