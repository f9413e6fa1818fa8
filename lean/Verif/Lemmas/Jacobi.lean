import Verif.Model.Jacobi
import Verif.Lemmas.LinAlg
import Mathlib.Analysis.SpecialFunctions.Exp
import Mathlib.LinearAlgebra.Matrix.Trace
import Mathlib.Analysis.Matrix.Hermitian
import Mathlib.LinearAlgebra.Matrix.NonsingularInverse
import Mathlib.Tactic.LinearCombination
import Mathlib.Tactic.FieldSimp

/-! # Lemmas on Jacobi rotations -/

namespace Hila

set_option linter.unusedSectionVars false

variable {𝕜 : Type} [RCLike 𝕜] {n : ℕ}

/-- The rotation as a matrix. -/
def Givens.mat (g : Givens 𝕜) (p q : Fin n) : Matrix (Fin n) (Fin n) 𝕜 := g.right 1 p q

theorem Givens.right_eq (g : Givens 𝕜) (M : Matrix (Fin n) (Fin n) 𝕜) (p q : Fin n) : g.right M p q = M * g.mat p q := by
  ext i j
  rw [Matrix.mul_apply]
  simp only [Givens.mat, Givens.right, Matrix.of_apply, Matrix.one_apply]
  by_cases hq : j = q
  · simp only [hq, if_true, mul_add, ite_mul, mul_ite, one_mul, zero_mul, mul_zero, Finset.sum_add_distrib]
    simp
  · by_cases hp : j = p
    · simp only [hp, if_true, if_neg (show ¬ p = q by rw [← hp]; exact hq), mul_sub, ite_mul, mul_ite, one_mul, zero_mul, mul_zero,
        mul_one, Finset.sum_sub_distrib]
      simp [mul_comm]
    · simp [hq, hp]

theorem Givens.left_eq (g : Givens 𝕜) (M : Matrix (Fin n) (Fin n) 𝕜) {p q : Fin n} (hpq : p ≠ q) :
    g.dagger.left M p q = (g.mat p q).conjTranspose * M := by
  ext i j
  rw [Matrix.mul_apply]
  simp only [Givens.mat, Givens.right, Givens.left, Givens.dagger, Matrix.of_apply, Matrix.one_apply, Matrix.conjTranspose_apply]
  by_cases hq : i = q
  · simp only [hq, if_true, ite_mul, one_mul, zero_mul, star_add, apply_ite star, star_zero, add_mul, Finset.sum_add_distrib]
    simp
    ring
  · by_cases hp : i = p
    · simp only [hp, if_true, if_neg hpq, ite_mul, one_mul, zero_mul, mul_ite, mul_one, mul_zero, star_sub, apply_ite star, star_zero,
        sub_mul, Finset.sum_sub_distrib]
      simp
      ring
    · simp only [hq, hp, if_false, apply_ite star, star_zero, star_one, ite_mul, one_mul, zero_mul]
      simp

theorem Givens.mat_unitary (g : Givens 𝕜) {p q : Fin n} (hpq : p ≠ q) (h : g.c ^ 2 + RCLike.normSq g.s = 1) :
    (g.mat p q).conjTranspose * g.mat p q = 1 := by
  have h' : (g.c : 𝕜) * g.c + g.s * (starRingEnd 𝕜) g.s = 1 := by
    have := congrArg (fun x : ℝ => (x : 𝕜)) h
    push_cast [RCLike.normSq_eq_def'] at this
    rw [← RCLike.mul_conj] at this
    rw [← this, pow_two]
  rw [← Givens.left_eq g _ hpq]
  ext i j
  simp only [Givens.mat, Givens.right, Givens.left, Givens.dagger, Matrix.of_apply, Matrix.one_apply]
  by_cases hiq : i = q
  · subst hiq
    by_cases hjq : j = i
    · subst hjq; simp [hpq, hpq.symm]; linear_combination h'
    · by_cases hjp : j = p
      · subst hjp; simp [hjq, Ne.symm hjq]; ring
      · simp [hjq, hjp, Ne.symm hjq, Ne.symm hjp]
  · by_cases hip : i = p
    · subst hip
      by_cases hjq : j = q
      · subst hjq; simp [hpq, hpq.symm]; ring
      · by_cases hjp : j = i
        · subst hjp; simp [hjq, Ne.symm hjq]; linear_combination h'
        · simp [hjq, hjp, Ne.symm hjq, Ne.symm hjp, hiq]
    · by_cases hjq : j = q
      · subst hjq; simp [hip, hiq]
      · by_cases hjp : j = p
        · subst hjp; simp [hjq, hip, hiq]
        · simp [hjq, hjp, hip, hiq]

/-- The rotation of `diagonalize_2x2`: parameter `t`. -/
theorem diag2_run (mpp mqq : ℝ) (mpq : 𝕜) (h : mpq ≠ 0) :
    ∃ g t, diag2 mpp mqq mpq = some g ∧ g.c ^ 2 + RCLike.normSq g.s = 1 ∧
      t * t * RCLike.normSq mpq + t * (mqq - mpp) = 1 ∧ g.s = mpq * ((t * g.c : ℝ) : 𝕜) ∧
      g.c ^ 2 * (1 + t * t * RCLike.normSq mpq) = 1 := by
  have hm : 0 < RCLike.normSq mpq := lt_of_le_of_ne (RCLike.normSq_nonneg _) (fun e => h (RCLike.normSq_eq_zero.1 e.symm))
  obtain ⟨m2, hm2⟩ : ∃ m2, m2 = RCLike.normSq mpq := ⟨_, rfl⟩
  obtain ⟨a, ha⟩ : ∃ a, a = mqq - mpp := ⟨_, rfl⟩
  have hD : 0 < |a| + Real.sqrt (a * a + 4 * m2) :=
    add_pos_of_nonneg_of_pos (abs_nonneg _) (Real.sqrt_pos.2 (by rw [hm2]; nlinarith [mul_self_nonneg a]))
  obtain ⟨t, ht⟩ : ∃ t, t = if a < 0 then -(2 / (|a| + Real.sqrt (a * a + 4 * m2))) else 2 / (|a| + Real.sqrt (a * a + 4 * m2)) :=
    ⟨_, rfl⟩
  have hP : 0 < m2 * t * t + 1 := by
    have : 0 ≤ m2 * t * t := by rw [mul_assoc]; exact mul_nonneg (hm2 ▸ hm.le) (mul_self_nonneg t)
    linarith
  have hs : 0 < Real.sqrt (m2 * t * t + 1) := Real.sqrt_pos.2 hP
  have hc : (1 / Real.sqrt (m2 * t * t + 1)) ^ 2 * (1 + t * t * m2) = 1 := by
    rw [div_pow, Real.sq_sqrt hP.le, one_pow, show 1 + t * t * m2 = m2 * t * t + 1 from by ring, one_div_mul_cancel hP.ne']
  refine ⟨⟨mpq * ((t * (1 / Real.sqrt (m2 * t * t + 1)) : ℝ) : 𝕜), 1 / Real.sqrt (m2 * t * t + 1)⟩, t, ?_, ?_, ?_, rfl, ?_⟩
  · unfold diag2
    dsimp only
    rw [← hm2, ← ha, div?_some (by exact hD.ne'), Option.bind_some, ← ht, div?_some (by exact hs.ne'), Option.map_some]
  · dsimp only
    rw [map_mul, ← hm2, RCLike.normSq_eq_def' ((_ : ℝ) : 𝕜), RCLike.norm_ofReal, sq_abs]
    linear_combination hc
  · rw [← hm2, ← ha]
    obtain ⟨r, hr⟩ : ∃ r, r = Real.sqrt (a * a + 4 * m2) := ⟨_, rfl⟩
    have hr2 : r * r = a * a + 4 * m2 := by
      rw [hr]; exact Real.mul_self_sqrt (by rw [hm2]; nlinarith [mul_self_nonneg a])
    rw [← hr] at ht hD
    rcases lt_or_ge a 0 with hneg | hpos
    · rw [if_pos hneg, abs_of_neg hneg] at ht
      rw [abs_of_neg hneg] at hD
      have e : t * (-a + r) = -2 := by rw [ht]; field_simp
      have : (t * t * m2 + t * a - 1) * (-a + r) ^ 2 = 0 := by
        have e2 : t * t * (-a + r) ^ 2 = 4 := by linear_combination (t * (-a + r) - 2) * e
        linear_combination m2 * e2 + a * (-a + r) * e - hr2
      have := (mul_eq_zero.1 this).resolve_right (pow_ne_zero _ hD.ne')
      linarith
    · rw [if_neg (not_lt.2 hpos), abs_of_nonneg hpos] at ht
      rw [abs_of_nonneg hpos] at hD
      have e : t * (a + r) = 2 := by rw [ht]; field_simp
      have : (t * t * m2 + t * a - 1) * (a + r) ^ 2 = 0 := by
        have e2 : t * t * (a + r) ^ 2 = 4 := by linear_combination (t * (a + r) + 2) * e
        linear_combination m2 * e2 + a * (a + r) * e - hr2
      have := (mul_eq_zero.1 this).resolve_right (pow_ne_zero _ hD.ne')
      linarith
  · rw [← hm2]; exact hc

/-- Sum of the squares of all elements. -/
noncomputable def froSq (M : Matrix (Fin n) (Fin n) 𝕜) : ℝ := ∑ i, ∑ j, RCLike.normSq (M i j)

/-- Sum of the squares of the elements outside the diagonal. -/
noncomputable def offSq (M : Matrix (Fin n) (Fin n) 𝕜) : ℝ := ∑ i, ∑ j, if i = j then 0 else RCLike.normSq (M i j)

theorem froSq_eq (M : Matrix (Fin n) (Fin n) 𝕜) : froSq M = offSq M + ∑ i, RCLike.normSq (M i i) := by
  unfold froSq offSq
  rw [← Finset.sum_add_distrib]
  apply Finset.sum_congr rfl
  intro i _
  have : ∀ j, RCLike.normSq (M i j) = (if i = j then 0 else RCLike.normSq (M i j)) + if i = j then RCLike.normSq (M i i) else 0 := by
    intro j
    by_cases h : i = j
    · subst h; simp
    · simp [h]
  rw [Finset.sum_congr rfl fun j _ => this j, Finset.sum_add_distrib]
  simp

theorem offSq_nonneg (M : Matrix (Fin n) (Fin n) 𝕜) : 0 ≤ offSq M :=
  Finset.sum_nonneg fun i _ => Finset.sum_nonneg fun j _ => by
    split_ifs
    · exact le_rfl
    · exact RCLike.normSq_nonneg _

theorem offSq_le_froSq (M : Matrix (Fin n) (Fin n) 𝕜) : offSq M ≤ froSq M := by
  rw [froSq_eq]
  exact le_add_of_nonneg_right (Finset.sum_nonneg fun i _ => RCLike.normSq_nonneg _)

theorem le_offSq (M : Matrix (Fin n) (Fin n) 𝕜) {i j : Fin n} (h : i ≠ j) : RCLike.normSq (M i j) ≤ offSq M := by
  have hnn : ∀ i j, 0 ≤ if i = j then 0 else RCLike.normSq (M i j) := fun i j => by
    split_ifs
    · exact le_rfl
    · exact RCLike.normSq_nonneg _
  calc RCLike.normSq (M i j) = if i = j then 0 else RCLike.normSq (M i j) := (if_neg h).symm
    _ ≤ ∑ j, if i = j then 0 else RCLike.normSq (M i j) :=
      Finset.single_le_sum (f := fun j => if i = j then 0 else RCLike.normSq (M i j)) (fun j _ => hnn i j) (Finset.mem_univ j)
    _ ≤ offSq M := Finset.single_le_sum (f := fun i => ∑ j, if i = j then 0 else RCLike.normSq (M i j))
      (fun i _ => Finset.sum_nonneg fun j _ => hnn i j) (Finset.mem_univ i)

theorem froSq_trace (M : Matrix (Fin n) (Fin n) 𝕜) : ((froSq M : ℝ) : 𝕜) = (M.conjTranspose * M).trace := by
  unfold froSq Matrix.trace
  rw [Finset.sum_comm]
  push_cast
  apply Finset.sum_congr rfl
  intro j _
  rw [Matrix.diag_apply, Matrix.mul_apply]
  apply Finset.sum_congr rfl
  intro i _
  rw [Matrix.conjTranspose_apply, RCLike.normSq_eq_def', mul_comm]
  push_cast
  rw [← RCLike.mul_conj]
  rfl

theorem froSq_conj (M G : Matrix (Fin n) (Fin n) 𝕜) (hG : G.conjTranspose * G = 1) : froSq (G.conjTranspose * M * G) = froSq M := by
  have hG' : G * G.conjTranspose = 1 := mul_eq_one_comm.1 hG
  apply RCLike.ofReal_injective (K := 𝕜)
  rw [froSq_trace, froSq_trace]
  have : (G.conjTranspose * M * G).conjTranspose * (G.conjTranspose * M * G) = G.conjTranspose * (M.conjTranspose * M * G) := by
    rw [Matrix.conjTranspose_mul, Matrix.conjTranspose_mul, Matrix.conjTranspose_conjTranspose]
    calc G.conjTranspose * (M.conjTranspose * G) * (G.conjTranspose * M * G)
        = G.conjTranspose * (M.conjTranspose * (G * G.conjTranspose) * M * G) := by simp only [Matrix.mul_assoc]
      _ = _ := by rw [hG', Matrix.mul_one]
  rw [this, Matrix.trace_mul_comm, Matrix.mul_assoc, hG', Matrix.mul_one]

/-- A rotation by `diagonalize_2x2` removes one element of a hermitean matrix. -/
theorem rotate_herm (H : Matrix (Fin n) (Fin n) 𝕜) (hH : H.IsHermitian) {p q : Fin n} (hpq : p ≠ q) (h0 : H p q ≠ 0) :
    ∃ g, diag2 (RCLike.re (H p p)) (RCLike.re (H q q)) (H p q) = some g ∧ (g.mat p q).conjTranspose * g.mat p q = 1 ∧
      ((g.mat p q).conjTranspose * H * g.mat p q) p q = 0 ∧
      (∀ i, i ≠ p → i ≠ q → ((g.mat p q).conjTranspose * H * g.mat p q) i i = H i i) ∧
      offSq ((g.mat p q).conjTranspose * H * g.mat p q) = offSq H - 2 * RCLike.normSq (H p q) := by
  obtain ⟨g, t, hg, h1, h2, h3, h4⟩ := diag2_run (RCLike.re (H p p)) (RCLike.re (H q q)) (H p q) h0
  have hU := g.mat_unitary hpq h1
  have e : (g.mat p q).conjTranspose * H * g.mat p q = g.right (g.dagger.left H p q) p q := by
    rw [Givens.right_eq, Givens.left_eq _ _ hpq]
  -- elements of `H`
  obtain ⟨a, ha⟩ : ∃ a : ℝ, a = RCLike.re (H p p) := ⟨_, rfl⟩
  obtain ⟨d, hd⟩ : ∃ d : ℝ, d = RCLike.re (H q q) := ⟨_, rfl⟩
  obtain ⟨b, hb⟩ : ∃ b : 𝕜, b = H p q := ⟨_, rfl⟩
  have hpp : H p p = (a : 𝕜) := by rw [ha]; exact (hH.coe_re_apply_self p).symm
  have hqq : H q q = (d : 𝕜) := by rw [hd]; exact (hH.coe_re_apply_self q).symm
  have hqp : H q p = (starRingEnd 𝕜) b := by rw [hb]; exact (hH.apply q p).symm
  obtain ⟨m2, hm2⟩ : ∃ m2 : ℝ, m2 = RCLike.normSq b := ⟨_, rfl⟩
  have hbb : b * (starRingEnd 𝕜) b = (m2 : 𝕜) := by rw [hm2, RCLike.normSq_eq_def', RCLike.mul_conj]; push_cast; rfl
  rw [← ha, ← hd, ← hb, ← hm2] at h2
  rw [← hb, ← hm2] at h4
  rw [← hb] at h3
  have hs : g.s = b * ((t : 𝕜) * g.c) := by rw [h3]; push_cast; rfl
  have hsc : (starRingEnd 𝕜) g.s = (starRingEnd 𝕜) b * ((t : 𝕜) * g.c) := by
    rw [hs, map_mul, map_mul, RCLike.conj_ofReal, RCLike.conj_ofReal]
  have h2' : (t : 𝕜) * t * m2 + t * (d - a) = 1 := by exact_mod_cast congrArg (fun x : ℝ => (x : 𝕜)) h2
  have h4' : (g.c : 𝕜) ^ 2 * (1 + t * t * m2) = 1 := by exact_mod_cast congrArg (fun x : ℝ => (x : 𝕜)) h4
  have mpq : ((g.mat p q).conjTranspose * H * g.mat p q) p q = 0 := by
    rw [e]
    simp only [Givens.right, Givens.left, Givens.dagger, Matrix.of_apply, if_true, if_neg hpq]
    rw [hpp, hqq, hqp, ← hb, hs]
    linear_combination (-(b * (g.c : 𝕜) ^ 2)) * h2' - (b * t * t * g.c ^ 2) * hbb
  have mpp : ((g.mat p q).conjTranspose * H * g.mat p q) p p = ((a - t * m2 : ℝ) : 𝕜) := by
    rw [e]
    simp only [Givens.right, Givens.left, Givens.dagger, Matrix.of_apply, if_true, if_neg hpq, RCLike.star_def]
    rw [hpp, hqq, hqp, ← hb, hs, map_mul, map_mul, RCLike.conj_ofReal, RCLike.conj_ofReal]
    push_cast
    linear_combination (-2 * t * g.c ^ 2 + t * t * g.c ^ 2 * d) * hbb + (a - t * m2) * h4' + (g.c : 𝕜) ^ 2 * t * m2 * h2'
  have mqq : ((g.mat p q).conjTranspose * H * g.mat p q) q q = ((d + t * m2 : ℝ) : 𝕜) := by
    rw [e]
    simp only [Givens.right, Givens.left, Givens.dagger, Matrix.of_apply, if_true, if_neg hpq, RCLike.star_def]
    rw [hpp, hqq, hqp, ← hb, hs, map_neg, map_mul, map_mul, RCLike.conj_ofReal, RCLike.conj_ofReal]
    push_cast
    linear_combination (2 * t * g.c ^ 2 + t * t * g.c ^ 2 * a) * hbb + (d + t * m2) * h4' - (g.c : 𝕜) ^ 2 * t * m2 * h2'
  have mii : ∀ i, i ≠ p → i ≠ q → ((g.mat p q).conjTranspose * H * g.mat p q) i i = H i i := by
    intro i hp hq
    rw [e]
    simp only [Givens.right, Givens.left, Matrix.of_apply, if_neg hp, if_neg hq]
  refine ⟨g, hg, hU, mpq, mii, ?_⟩
  have hf := froSq_conj H (g.mat p q) hU
  rw [froSq_eq, froSq_eq H] at hf
  have split : ∀ f : Fin n → ℝ, ∑ i, f i = f p + f q + ∑ i ∈ (Finset.univ.erase p).erase q, f i := by
    intro f
    rw [← Finset.add_sum_erase _ _ (Finset.mem_univ p),
      ← Finset.add_sum_erase (Finset.univ.erase p) _ (Finset.mem_erase.2 ⟨hpq.symm, Finset.mem_univ q⟩), add_assoc]
  rw [split, split (fun i => RCLike.normSq (H i i))] at hf
  have rest : ∑ i ∈ (Finset.univ.erase p).erase q, RCLike.normSq (((g.mat p q).conjTranspose * H * g.mat p q) i i) =
      ∑ i ∈ (Finset.univ.erase p).erase q, RCLike.normSq (H i i) := by
    apply Finset.sum_congr rfl
    intro i hi
    rw [mii i (Finset.ne_of_mem_erase (Finset.mem_of_mem_erase hi)) (Finset.ne_of_mem_erase hi)]
  rw [rest, mpp, mqq, hpp, hqq] at hf
  have nr : ∀ x : ℝ, RCLike.normSq (x : 𝕜) = x ^ 2 := fun x => by rw [RCLike.normSq_eq_def', RCLike.norm_ofReal, sq_abs]
  rw [nr, nr, nr, nr] at hf
  rw [← hb, ← hm2]
  linear_combination hf - 2 * m2 * h2

/-- Result of the search for the largest element. -/
theorem largestOff_run (hn : 2 ≤ n) (M : Matrix (Fin n) (Fin n) 𝕜) :
    ∃ p q, largestOff M = some (‖M p q‖, p, q) ∧ p < q ∧ ∀ i j, i < j → RCLike.normSq (M i j) ≤ RCLike.normSq (M p q) := by
  have key : ∀ t : ℕ, t ≤ n → ∀ s : ℝ × Option (Fin n × Fin n), True := fun _ _ _ => trivial
  obtain ⟨s, hs, hI⟩ := forLoop_run (n := n) (hi := n - 1)
    (fun t (s : ℝ × Option (Fin n × Fin n)) => (s.2 = none ∧ s.1 = -1 ∨ ∃ p q, s.2 = some (p, q) ∧ p < q ∧ s.1 = RCLike.normSq (M p q)) ∧
      ∀ i j : Fin n, i < j → i.val < t → RCLike.normSq (M i j) ≤ s.1)
    (fun i s => forLoop n n (fun j (s : ℝ × Option (Fin n × Fin n)) =>
      some (if s.1 < RCLike.normSq (M i j) then (RCLike.normSq (M i j), some (i, j)) else s)) (i.val + 1) s) (by omega)
    (by
      rintro i s hi ⟨h1, h2⟩
      obtain ⟨s', hs', k1, k2, -⟩ := forLoop_run' (n := n) (hi := n)
        (fun t (s' : ℝ × Option (Fin n × Fin n)) => (s'.2 = none ∧ s'.1 = -1 ∨ ∃ p q, s'.2 = some (p, q) ∧ p < q ∧ s'.1 = RCLike.normSq (M p q)) ∧
          (∀ a b : Fin n, a < b → (a.val < i.val ∨ a = i ∧ b.val < t) → RCLike.normSq (M a b) ≤ s'.1) ∧ True)
        (fun j (s : ℝ × Option (Fin n × Fin n)) =>
          some (if s.1 < RCLike.normSq (M i j) then (RCLike.normSq (M i j), some (i, j)) else s)) le_rfl (i.val + 1)
        (by
          rintro j s' hij _ ⟨k1, k2, -⟩
          refine ⟨_, rfl, ?_⟩
          by_cases hlt : s'.1 < RCLike.normSq (M i j)
          · rw [if_pos hlt]
            refine ⟨Or.inr ⟨i, j, rfl, hij, rfl⟩, fun a b hab hc => ?_, trivial⟩
            dsimp only
            rcases hc with hc | ⟨rfl, hc⟩
            · exact (k2 a b hab (Or.inl hc)).trans hlt.le
            · by_cases hbj : b = j
              · rw [hbj]
              · exact (k2 a b hab (Or.inr ⟨rfl, lt_of_le_of_ne (by omega) fun e => hbj (Fin.ext e)⟩)).trans hlt.le
          · rw [if_neg hlt]
            refine ⟨k1, fun a b hab hc => ?_, trivial⟩
            rcases hc with hc | ⟨rfl, hc⟩
            · exact k2 a b hab (Or.inl hc)
            · by_cases hbj : b = j
              · rw [hbj]; exact not_lt.1 hlt
              · exact k2 a b hab (Or.inr ⟨rfl, lt_of_le_of_ne (by omega) fun e => hbj (Fin.ext e)⟩)) s (by omega)
        ⟨h1, fun a b hab hc => h2 a b hab (by
          rcases hc with hc | ⟨rfl, hc⟩
          · exact hc
          · have : a.val < b.val := hab
            omega), trivial⟩
      exact ⟨s', hs', k1, fun a b hab hc => k2 a b hab (by
        by_cases hai : a = i
        · exact Or.inr ⟨hai, b.isLt⟩
        · exact Or.inl (lt_of_le_of_ne (by omega) fun e => hai (Fin.ext e)))⟩) 0 (-1, none) (Nat.zero_le _)
    ⟨Or.inl ⟨rfl, rfl⟩, fun i j _ h => absurd h (Nat.not_lt_zero _)⟩
  have hall : ∀ i j : Fin n, i < j → RCLike.normSq (M i j) ≤ s.1 := fun i j hij => hI.2 i j hij (by
    have := j.isLt
    have : i.val < j.val := hij
    omega)
  rcases hI.1 with ⟨-, h⟩ | ⟨p, q, hpq, hlt, he⟩
  · exfalso
    have := hall ⟨0, by omega⟩ ⟨1, by omega⟩ (show 0 < 1 by omega)
    have := RCLike.normSq_nonneg (M ⟨0, by omega⟩ ⟨1, by omega⟩)
    linarith
  · refine ⟨p, q, ?_, hlt, fun i j hij => he ▸ hall i j hij⟩
    unfold largestOff
    rw [hs, Option.bind_some, hpq, Option.map_some, he, RCLike.normSq_eq_def', Real.sqrt_sq (norm_nonneg _)]

theorem offSq_le (M : Matrix (Fin n) (Fin n) 𝕜) (hM : M.IsHermitian) {c : ℝ}
    (h : ∀ i j, i < j → RCLike.normSq (M i j) ≤ c) : offSq M ≤ (n * n - n) * c := by
  have h' : ∀ i j, i ≠ j → RCLike.normSq (M i j) ≤ c := by
    intro i j hij
    rcases lt_or_gt_of_ne hij with hl | hl
    · exact h i j hl
    · rw [← hM.apply i j, RCLike.star_def, RCLike.normSq_conj]
      exact h j i hl
  have e : (n * n - n : ℝ) * c = ∑ i : Fin n, ∑ j : Fin n, if i = j then 0 else c := by
    have : ∀ i j : Fin n, (if i = j then 0 else c) = c - if i = j then c else 0 := by
      intro i j; split_ifs <;> simp
    simp only [this]
    simp
    ring
  rw [e]
  apply Finset.sum_le_sum
  intro i _
  apply Finset.sum_le_sum
  intro j _
  split_ifs with hij
  · exact le_rfl
  · exact h' i j hij

/-! ### Order -/

theorem sortInner_run (o : SortOrder) (ho : o ≠ .unsorted) (c : Fin n → ℝ) (i : ℕ) (hi : i < n) : ∀ (j : ℕ) (p : Fin n → Fin n), j ≤ i →
    Function.Bijective p → (∀ a b : Fin n, a < b → b.val ≤ i → b.val ≠ j → ¬ o.wrong (c (p a)) (c (p b))) →
    Function.Bijective (sortInner o c j p) ∧
      ∀ a b : Fin n, a < b → b.val ≤ i → ¬ o.wrong (c (sortInner o c j p a)) (c (sortInner o c j p b)) := by
  have trans : ∀ x y z : ℝ, ¬ o.wrong x y → ¬ o.wrong y z → ¬ o.wrong x z := by
    intro x y z
    cases o with
    | unsorted => exact absurd rfl ho
    | ascending => simp only [SortOrder.wrong, not_lt, gt_iff_lt]; exact le_trans
    | descending => simp only [SortOrder.wrong, not_lt]; exact fun h1 h2 => h2.trans h1
  have asymm : ∀ x y : ℝ, o.wrong x y → ¬ o.wrong y x := by
    intro x y
    cases o with
    | unsorted => exact absurd rfl ho
    | ascending => simp only [SortOrder.wrong, not_lt, gt_iff_lt]; exact le_of_lt
    | descending => simp only [SortOrder.wrong, not_lt]; exact le_of_lt
  intro j
  induction j with
  | zero =>
    intro p _ hp h
    exact ⟨hp, fun a b hab hb => h a b hab hb (by have : a.val < b.val := hab; omega)⟩
  | succ j ih =>
    intro p hj hp h
    have hj1 : j + 1 < n := by omega
    rw [sortInner, dif_pos hj1]
    obtain ⟨x, hx⟩ : ∃ x : Fin n, x = ⟨j, Nat.lt_of_succ_lt hj1⟩ := ⟨_, rfl⟩
    obtain ⟨y, hy⟩ : ∃ y : Fin n, y = ⟨j + 1, hj1⟩ := ⟨_, rfl⟩
    have hxv : x.val = j := by rw [hx]
    have hyv : y.val = j + 1 := by rw [hy]
    rw [← hx, ← hy]
    by_cases hw : o.wrong (c (p x)) (c (p y))
    · rw [if_pos hw]
      apply ih _ (by omega) (hp.comp (Equiv.swap y x).bijective)
      intro a b hab hb hbj
      have habv : a.val < b.val := hab
      have hbx : b ≠ x := fun e => hbj (by rw [e, hxv])
      show ¬ o.wrong (c (p (Equiv.swap y x a))) (c (p (Equiv.swap y x b)))
      by_cases hby : b = y
      · rw [hby, Equiv.swap_apply_left]
        by_cases hax : a = x
        · rw [hax, Equiv.swap_apply_right]
          exact asymm _ _ hw
        · have hay : a ≠ y := fun e => by rw [e, hby] at habv; omega
          rw [Equiv.swap_apply_of_ne_of_ne hay hax]
          refine h a x (show a.val < x.val from ?_) (by omega) (by omega)
          have : a.val ≠ x.val := fun e => hax (Fin.ext e)
          rw [hby] at habv
          omega
      · rw [Equiv.swap_apply_of_ne_of_ne hby hbx]
        have hbv : b.val ≠ y.val := fun e => hby (Fin.ext e)
        have hbv' : b.val ≠ x.val := fun e => hbx (Fin.ext e)
        refine h _ b (show (Equiv.swap y x a).val < b.val from ?_) hb (by omega)
        by_cases hay : a = y
        · rw [hay, Equiv.swap_apply_left]; rw [hay] at habv; omega
        · by_cases hax : a = x
          · rw [hax, Equiv.swap_apply_right]; rw [hax] at habv; omega
          · rw [Equiv.swap_apply_of_ne_of_ne hay hax]; exact habv
    · rw [if_neg hw]
      refine ⟨hp, fun a b hab hb => ?_⟩
      by_cases hby : b = y
      · rw [hby]
        by_cases hax : a = x
        · rw [hax]; exact hw
        · refine trans _ (c (p x)) _ (h a x (show a.val < x.val from ?_) (by omega) (by omega)) hw
          have : a.val ≠ x.val := fun e => hax (Fin.ext e)
          have : a.val < b.val := hab
          rw [hby] at this
          omega
      · exact h a b hab hb (fun e => hby (Fin.ext (by rw [e, hyv])))

theorem sortPerm_run (o : SortOrder) (ho : o ≠ .unsorted) (c : Fin n → ℝ) :
    ∃ p, sortPerm o c = some p ∧ Function.Bijective p ∧ ∀ a b : Fin n, a < b → ¬ o.wrong (c (p a)) (c (p b)) := by
  by_cases hn : n = 0
  · subst hn
    refine ⟨id, ?_, Function.bijective_id, fun a => a.elim0⟩
    unfold sortPerm
    rw [forLoop, dif_neg (by omega)]
  obtain ⟨p, h1, h2, h3⟩ := forLoop_run' (n := n) (hi := n)
    (fun t (p : Fin n → Fin n) => Function.Bijective p ∧ ∀ a b : Fin n, a < b → b.val < t → ¬ o.wrong (c (p a)) (c (p b)))
    (fun i p => some (sortInner o c i.val p)) le_rfl 1
    (by
      rintro i p hi _ ⟨hp, hI⟩
      obtain ⟨k1, k2⟩ := sortInner_run o ho c i.val i.isLt i.val p le_rfl hp (fun a b hab hb hb' => hI a b hab (by omega))
      exact ⟨_, rfl, k1, fun a b hab hb => k2 a b hab (by omega)⟩) id (by omega)
    ⟨Function.bijective_id, fun a b hab hb => by have : a.val < b.val := hab; omega⟩
  exact ⟨p, h1, h2, fun a b hab => h3 a b hab b.isLt⟩

end Hila
