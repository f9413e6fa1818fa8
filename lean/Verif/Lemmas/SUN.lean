import Verif.Model.SUN
import Mathlib.Algebra.BigOperators.Intervals
import Mathlib.Algebra.BigOperators.Fin
import Mathlib.Tactic.Ring
import Mathlib.Tactic.Linarith
import Mathlib.Tactic.FieldSimp

/-!
# Loops over the algebra of SU(N)
-/

namespace Hila

variable {N : ℕ}

theorem finRange_drop_cons {m : ℕ} (hm : m < N) :
    (List.finRange N).drop m = ⟨m, hm⟩ :: (List.finRange N).drop (m + 1) := by
  rw [List.drop_eq_getElem_cons (by simpa using hm)]
  simp

theorem finRange_drop_all {m : ℕ} (hm : N ≤ m) : (List.finRange N).drop m = [] := by
  apply List.drop_eq_nil_of_le; simpa using hm

/-! ### The pairs -/

theorem mem_upperPairs {p : Fin N × Fin N} : p ∈ upperPairs N ↔ p.1 < p.2 := by
  unfold upperPairs
  simp only [List.mem_flatMap, List.mem_finRange, List.mem_map, List.mem_filter, true_and, decide_eq_true_eq]
  constructor
  · rintro ⟨i, j, h, rfl⟩; exact h
  · intro h; exact ⟨p.1, p.2, h, rfl⟩

theorem nodup_upperPairs : (upperPairs N).Nodup := by
  unfold upperPairs
  rw [List.nodup_flatMap]
  constructor
  · intro i _
    exact ((List.nodup_finRange N).filter _).map (fun a b h => by simpa using h)
  · have := List.nodup_finRange N
    refine List.Pairwise.imp ?_ this
    intro a b hab
    simp only [Function.onFun, List.disjoint_left, List.mem_map, List.mem_filter]
    rintro x ⟨j, _, rfl⟩ ⟨j', _, h⟩
    exact hab (by simpa using (congrArg Prod.fst h).symm)

theorem length_filter_lt (i : Fin N) : ((List.finRange N).filter fun j => i < j).length = N - 1 - i.val := by
  have h1 : ((List.finRange N).filter fun j => i < j).length = (Finset.univ.filter fun j => i < j).card := by
    rw [← List.toFinset_card_of_nodup ((List.nodup_finRange N).filter _)]
    congr 1; ext j; simp
  rw [h1]
  have h2 : (Finset.univ.filter fun j => i < j) = Finset.Ioi i := by ext; simp
  rw [h2, Fin.card_Ioi]

theorem length_upperPairs : 2 * (upperPairs N).length = N * (N - 1) := by
  unfold upperPairs
  rw [List.length_flatMap]
  simp only [List.length_map, length_filter_lt]
  have h : ((List.finRange N).map fun i : Fin N => N - 1 - i.val).sum = ∑ i ∈ Finset.range N, (N - 1 - i) := by
    rw [Finset.sum_range, ← List.ofFn_eq_map, List.sum_ofFn]
  rw [h, Finset.sum_range_reflect (fun i => i) N, mul_comm, Finset.sum_range_id_mul_two]

theorem dim_alg (hN : 0 < N) : N - 1 + 2 * (upperPairs N).length = N * N - 1 := by
  rw [length_upperPairs]
  obtain ⟨m, rfl⟩ : ∃ m, N = m + 1 := ⟨N - 1, by omega⟩
  simp only [Nat.add_sub_cancel]
  have : (m + 1) * (m + 1) = (m + 1) * m + m + 1 := by ring
  omega

/-! ### The loops of `project_to_algebra` -/

/-- Imaginary part of a diagonal element. -/
noncomputable def dIm (A : Mat N) (j : ℕ) : ℝ := if h : j < N then (A ⟨j, h⟩ ⟨j, h⟩).im else 0

/-- Sum of the first ones. -/
noncomputable def sIm (A : Mat N) (m : ℕ) : ℝ := ∑ j ∈ Finset.range m, dIm A j

theorem lt_dim {l : ℕ} (h : l + 1 < N) : l < N * N - 1 := by
  have : N ≤ N * N := Nat.le_mul_self N
  omega

theorem projDiag_run (A : Mat N) (scf : ℝ) (m : ℕ) (hm : 1 ≤ m) (b : Buf ℝ) :
    projDiag A scf ((List.finRange N).drop m) (sIm A m) b = some fun l =>
      if m ≤ l + 1 ∧ l + 1 < N then
        some (scf * (sIm A (l + 1) - ((l + 1 : ℕ) : ℝ) * dIm A (l + 1)) / Real.sqrt (0.5 * ((l + 1 : ℕ) : ℝ) * (((l + 1 : ℕ) : ℝ) + 1)))
      else b l := by
  by_cases h : m < N
  · rw [finRange_drop_cons h]
    have hw : m - 1 < N * N - 1 := lt_dim (by omega)
    have hd : (A ⟨m, h⟩ ⟨m, h⟩).im = dIm A m := by simp [dIm, h]
    have hs : sIm A m + dIm A m = sIm A (m + 1) := by simp [sIm, Finset.sum_range_succ]
    simp only [projDiag, wr, hw, if_true, hd, hs]
    rw [projDiag_run A scf (m + 1) (by omega)]
    congr 1
    funext l
    by_cases h1 : m + 1 ≤ l + 1 ∧ l + 1 < N
    · rw [if_pos h1, if_pos ⟨by omega, h1.2⟩]
    · rw [if_neg h1]
      by_cases h2 : l = m - 1
      · subst h2
        have h3 : m - 1 + 1 = m := by omega
        rw [if_pos ⟨by omega, by omega⟩, Function.update_self, h3]
      · rw [Function.update_of_ne h2]
        rw [if_neg (by omega)]
  · rw [finRange_drop_all (by omega)]
    simp only [projDiag]
    congr 1
    funext l
    rw [if_neg (by omega)]
termination_by N - m

theorem projOff_run (A : Mat N) (scf : ℝ) (ps : List (Fin N × Fin N)) (k : ℕ) (b : Buf ℝ)
    (hk : k + 2 * ps.length ≤ N * N - 1) :
    ∃ b', projOff A scf ps k b = some b' ∧ (∀ l, l < k → b' l = b l) ∧
      ∀ (q : ℕ) (h : q < ps.length),
        b' (k + 2 * q) = some (scf * (A ps[q].1 ps[q].2 - star (A ps[q].2 ps[q].1)).re) ∧
        b' (k + 2 * q + 1) = some (scf * (A ps[q].1 ps[q].2 - star (A ps[q].2 ps[q].1)).im) := by
  induction ps generalizing k b with
  | nil => exact ⟨b, rfl, fun _ _ => rfl, fun q h => absurd h (by simp)⟩
  | cons p ps ih =>
    obtain ⟨i, j⟩ := p
    simp only [List.length_cons] at hk
    have h0 : k < N * N - 1 := by omega
    have h1 : k + 1 < N * N - 1 := by omega
    simp only [projOff, wr, h0, h1, if_true]
    obtain ⟨b', hb', hlow, hq⟩ := ih (k + 2) (Function.update (Function.update b k
      (some (scf * (A i j - star (A j i)).re))) (k + 1) (some (scf * (A i j - star (A j i)).im))) (by omega)
    refine ⟨b', hb', ?_, ?_⟩
    · intro l hl
      rw [hlow l (by omega), Function.update_of_ne (by omega), Function.update_of_ne (by omega)]
    · intro q h
      cases q with
      | zero =>
        simp only [Nat.mul_zero, Nat.add_zero, List.getElem_cons_zero]
        constructor
        · rw [hlow k (by omega), Function.update_of_ne (by omega), Function.update_self]
        · rw [hlow (k + 1) (by omega), Function.update_self]
      | succ q =>
        have := hq q (by simpa using h)
        simp only [List.getElem_cons_succ]
        have e1 : k + 2 + 2 * q = k + 2 * (q + 1) := by ring
        rw [e1] at this
        exact this

/-! ### The generators -/

/-- Normalisation of the diagonal generators. -/
noncomputable def genNorm (i : ℕ) : ℝ := 1 / Real.sqrt (2 * ((i : ℝ) * (i + 1)))

/-- Diagonal generator. -/
noncomputable def genD (i : Fin N) : Mat N :=
  Matrix.diagonal fun j => if j < i then ⟨0, genNorm i⟩ else if j = i then ⟨0, -i.val * genNorm i⟩ else 0

/-- Real antisymmetric generator. -/
noncomputable def genR (i j : Fin N) : Mat N := Matrix.single i j (1 / 2) - Matrix.single j i (1 / 2)

/-- Imaginary symmetric generator. -/
noncomputable def genI (i j : Fin N) : Mat N := Matrix.single i j (Complex.I / 2) + Matrix.single j i (Complex.I / 2)

/-- Generator with number `l`. -/
noncomputable def genAt (N l : ℕ) : Mat N :=
  if h : l + 1 < N then genD ⟨l + 1, h⟩
  else match (upperPairs N)[(l - (N - 1)) / 2]? with
    | some (i, j) => if (l - (N - 1)) % 2 = 0 then genR i j else genI i j
    | none => 0

theorem genAt_diag {l : ℕ} (h : l + 1 < N) : genAt N l = genD ⟨l + 1, h⟩ := by simp [genAt, h]

theorem genAt_even {q : ℕ} (h : q < (upperPairs N).length) :
    genAt N (N - 1 + 2 * q) = genR (upperPairs N)[q].1 (upperPairs N)[q].2 := by
  unfold genAt
  rw [dif_neg (by omega)]
  have e : (N - 1 + 2 * q - (N - 1)) = 2 * q := by omega
  have e1 : 2 * q / 2 = q := by omega
  have e2 : 2 * q % 2 = 0 := by omega
  rw [e, e1, e2, List.getElem?_eq_getElem h]
  simp

theorem genAt_odd {q : ℕ} (h : q < (upperPairs N).length) :
    genAt N (N - 1 + 2 * q + 1) = genI (upperPairs N)[q].1 (upperPairs N)[q].2 := by
  unfold genAt
  rw [dif_neg (by omega)]
  have e : (N - 1 + 2 * q + 1 - (N - 1)) = 2 * q + 1 := by omega
  have e1 : (2 * q + 1) / 2 = q := by omega
  have e2 : (2 * q + 1) % 2 = 1 := by omega
  rw [e, e1, e2, List.getElem?_eq_getElem h]
  simp

/-- Every number is one of three kinds. -/
theorem gen_cases (hN : 0 < N) {l : ℕ} (hl : l < N * N - 1) :
    l + 1 < N ∨ (∃ q, q < (upperPairs N).length ∧ l = N - 1 + 2 * q) ∨
      ∃ q, q < (upperPairs N).length ∧ l = N - 1 + 2 * q + 1 := by
  have hd := dim_alg hN
  by_cases h : l + 1 < N
  · exact Or.inl h
  · refine Or.inr ?_
    rcases Nat.mod_two_eq_zero_or_one (l - (N - 1)) with h2 | h2
    · exact Or.inl ⟨(l - (N - 1)) / 2, by omega, by omega⟩
    · exact Or.inr ⟨(l - (N - 1)) / 2, by omega, by omega⟩

/-- The coefficient `2 Re tr(λ† A)`. -/
noncomputable def coef (G A : Mat N) : ℝ := 2 * (G.conjTranspose * A).trace.re

theorem coef_genR (i j : Fin N) (A : Mat N) : coef (genR i j) A = (A i j - star (A j i)).re := by
  unfold coef genR
  rw [Matrix.conjTranspose_sub, Matrix.conjTranspose_single, Matrix.conjTranspose_single, sub_mul, Matrix.trace_sub,
    Matrix.trace_single_mul, Matrix.trace_single_mul]
  simp
  ring

theorem coef_genI (i j : Fin N) (A : Mat N) : coef (genI i j) A = (A i j - star (A j i)).im := by
  unfold coef genI
  rw [Matrix.conjTranspose_add, Matrix.conjTranspose_single, Matrix.conjTranspose_single, add_mul, Matrix.trace_add,
    Matrix.trace_single_mul, Matrix.trace_single_mul]
  simp
  ring

theorem sum_ite_lt (f : ℕ → ℝ) (i : Fin N) (c e : ℝ) :
    ∑ j : Fin N, (if j < i then c * f j.val else if j = i then e * f j.val else 0) =
      c * ∑ j ∈ Finset.range i.val, f j + e * f i.val := by
  have h1 : ∀ j : Fin N, (if j < i then c * f j.val else if j = i then e * f j.val else 0) =
      (fun k : ℕ => if k < i.val then c * f k else if k = i.val then e * f k else 0) j.val := by
    intro j
    simp only [Fin.lt_def, Fin.ext_iff]
  rw [Finset.sum_congr rfl fun j _ => h1 j, Fin.sum_univ_eq_sum_range
    (fun k : ℕ => if k < i.val then c * f k else if k = i.val then e * f k else 0) N]
  rw [← Finset.sum_subset (s₁ := Finset.range (i.val + 1)) (by
      intro x; simp only [Finset.mem_range]; intro h; have := i.isLt; omega)
    (by intro x _ hx; simp only [Finset.mem_range] at hx; rw [if_neg (by omega), if_neg (by omega)])]
  rw [Finset.sum_range_succ, if_neg (by omega), if_pos rfl, Finset.mul_sum]
  congr 1
  apply Finset.sum_congr rfl
  intro x hx
  rw [if_pos (Finset.mem_range.1 hx)]

theorem coef_genD (i : Fin N) (A : Mat N) :
    coef (genD i) A = 2 * genNorm i * (sIm A i.val - i.val * dIm A i.val) := by
  unfold coef genD
  rw [Matrix.diagonal_conjTranspose]
  have h : (Matrix.diagonal (star fun j : Fin N => if j < i then (⟨0, genNorm i⟩ : ℂ) else
      if j = i then ⟨0, -i.val * genNorm i⟩ else 0) * A).trace.re =
      ∑ j : Fin N, (if j < i then genNorm i * dIm A j.val else if j = i then -i.val * genNorm i * dIm A j.val else 0) := by
    unfold Matrix.trace
    simp only [Matrix.diag_apply, Matrix.diagonal_mul, Complex.re_sum]
    apply Finset.sum_congr rfl
    intro j _
    have hd : (A j j).im = dIm A j.val := by simp [dIm]
    simp only [Pi.star_apply]
    split_ifs <;> simp [hd]
  rw [h, sum_ite_lt (dIm A) i (genNorm i) (-i.val * genNorm i)]
  unfold sIm
  ring

theorem genNorm_sqrt {i : ℕ} (hi : 0 < i) : 2 * genNorm i = 1 / Real.sqrt (0.5 * (i : ℝ) * ((i : ℝ) + 1)) := by
  unfold genNorm
  have hi' : (0 : ℝ) < i := by exact_mod_cast hi
  have e : 2 * ((i : ℝ) * (i + 1)) = 2 ^ 2 * (0.5 * (i : ℝ) * ((i : ℝ) + 1)) := by norm_num; ring
  rw [e, Real.sqrt_mul (by positivity), Real.sqrt_sq (by norm_num)]
  have : 0 < Real.sqrt (0.5 * (i : ℝ) * ((i : ℝ) + 1)) := Real.sqrt_pos.2 (by positivity)
  field_simp

/-- The values computed by `project_to_algebra_scaled`. -/
theorem projectScaledRun_eq (hN : 0 < N) (A : Mat N) (scf : ℝ) :
    projectScaledRun A scf = some fun l => scf * coef (genAt N l.val) A := by
  have hf : List.finRange N = ⟨0, hN⟩ :: (List.finRange N).drop 1 := by
    have := finRange_drop_cons hN; simpa using this
  unfold projectScaledRun
  rw [hf]
  have hs : (A ⟨0, hN⟩ ⟨0, hN⟩).im = sIm A 1 := by simp [sIm, dIm, hN]
  simp only [hs]
  have hpd := projDiag_run A scf 1 le_rfl (fun _ => none)
  simp only [hpd]
  set b : Buf ℝ := _ with hb
  obtain ⟨b', hb', hlow, hq⟩ := projOff_run A scf (upperPairs N) (N - 1) b (le_of_eq (dim_alg hN))
  rw [hb']
  have key : ∀ l : Fin (N * N - 1), b' l.val = some (scf * coef (genAt N l.val) A) := by
    intro l
    rcases gen_cases hN l.isLt with h | ⟨q, hq1, hl⟩ | ⟨q, hq1, hl⟩
    · rw [hlow l.val (by omega), hb, genAt_diag h, coef_genD]
      simp only
      rw [if_pos ⟨by omega, h⟩]
      rw [genNorm_sqrt (by omega)]
      congr 1
      push_cast
      ring
    · rw [hl, (hq q hq1).1, genAt_even hq1, coef_genR]
    · rw [hl, (hq q hq1).2, genAt_odd hq1, coef_genI]
  simp only [collect]
  rw [if_pos (fun l => by rw [key l]; rfl)]
  congr 1
  funext l
  rw [key l]; rfl

theorem projectScaled_eq (hN : 0 < N) (A : Mat N) (scf : ℝ) :
    projectScaled A scf = fun l => scf * coef (genAt N l.val) A := by
  unfold projectScaled; rw [projectScaledRun_eq hN]; rfl

theorem project_eq (hN : 0 < N) (A : Mat N) : project A = fun l => coef (genAt N l.val) A := by
  unfold project projectRun; rw [projectScaledRun_eq hN]; simp

/-! ### Entries of the generators -/

theorem genR_apply (i j a b : Fin N) :
    genR i j a b = (if i = a ∧ j = b then 1 / 2 else 0) - (if j = a ∧ i = b then 1 / 2 else 0) := by
  simp [genR, Matrix.single_apply]

theorem genI_apply (i j a b : Fin N) :
    genI i j a b = (if i = a ∧ j = b then Complex.I / 2 else 0) + (if j = a ∧ i = b then Complex.I / 2 else 0) := by
  simp [genI, Matrix.single_apply]

theorem genR_conj (i j : Fin N) : (genR i j).conjTranspose = -genR i j := by
  unfold genR
  rw [Matrix.conjTranspose_sub, Matrix.conjTranspose_single, Matrix.conjTranspose_single]
  simp

theorem genI_conj (i j : Fin N) : (genI i j).conjTranspose = -genI i j := by
  unfold genI
  rw [Matrix.conjTranspose_add, Matrix.conjTranspose_single, Matrix.conjTranspose_single]
  have : star (Complex.I / 2) = -(Complex.I / 2) := by
    simp [neg_div]
  rw [this, ← Matrix.single_neg, ← Matrix.single_neg]
  abel

theorem genD_conj (i : Fin N) : (genD i).conjTranspose = -genD i := by
  unfold genD
  rw [Matrix.diagonal_conjTranspose, Matrix.diagonal_neg]
  congr 1
  funext j
  simp only [Pi.star_apply]
  split_ifs
  · apply Complex.ext <;> simp
  · apply Complex.ext <;> simp
  · simp

theorem genAt_conj (l : ℕ) : (genAt N l).conjTranspose = -genAt N l := by
  unfold genAt
  by_cases h : l + 1 < N
  · rw [dif_pos h]; exact genD_conj _
  · rw [dif_neg h]
    split
    · split_ifs
      · exact genR_conj _ _
      · exact genI_conj _ _
    · simp

theorem genR_trace {i j : Fin N} (h : i < j) : (genR i j).trace = 0 := by
  unfold genR
  rw [Matrix.trace_sub, Matrix.trace_single_eq_of_ne _ _ _ h.ne, Matrix.trace_single_eq_of_ne _ _ _ h.ne', sub_zero]

theorem genI_trace {i j : Fin N} (h : i < j) : (genI i j).trace = 0 := by
  unfold genI
  rw [Matrix.trace_add, Matrix.trace_single_eq_of_ne _ _ _ h.ne, Matrix.trace_single_eq_of_ne _ _ _ h.ne', add_zero]

theorem genD_trace (i : Fin N) : (genD i).trace = 0 := by
  unfold genD
  rw [Matrix.trace_diagonal]
  have h1 := sum_ite_lt (fun _ => 1) i (genNorm i) (-i.val * genNorm i)
  simp only [mul_one, Finset.sum_const, Finset.card_range, nsmul_eq_mul] at h1
  have h2 : genNorm i * (i.val : ℝ) + -(i.val : ℝ) * genNorm i = 0 := by ring
  rw [h2] at h1
  apply Complex.ext
  · simp only [Complex.re_sum, Complex.zero_re]
    apply Finset.sum_eq_zero
    intro j _
    split_ifs <;> simp
  · simp only [Complex.im_sum, Complex.zero_im]
    rw [← h1]
    apply Finset.sum_congr rfl
    intro j _
    split_ifs <;> simp

theorem pair_lt {q : ℕ} (h : q < (upperPairs N).length) : (upperPairs N)[q].1 < (upperPairs N)[q].2 :=
  mem_upperPairs.1 (List.getElem_mem h)

theorem genAt_trace (hN : 0 < N) {l : ℕ} (hl : l < N * N - 1) : (genAt N l).trace = 0 := by
  rcases gen_cases hN hl with h | ⟨q, hq, rfl⟩ | ⟨q, hq, rfl⟩
  · rw [genAt_diag h, genD_trace]
  · rw [genAt_even hq, genR_trace (pair_lt hq)]
  · rw [genAt_odd hq, genI_trace (pair_lt hq)]

/-! ### Orthonormality -/

theorem dIm_genR (i j : Fin N) (h : i < j) (k : ℕ) : dIm (genR i j) k = 0 := by
  unfold dIm
  split_ifs with hk
  · rw [genR_apply, if_neg (by rintro ⟨rfl, h'⟩; exact absurd h' h.ne'), if_neg (by rintro ⟨rfl, h'⟩; exact absurd h' h.ne)]
    simp
  · rfl

theorem dIm_genI (i j : Fin N) (h : i < j) (k : ℕ) : dIm (genI i j) k = 0 := by
  unfold dIm
  split_ifs with hk
  · rw [genI_apply, if_neg (by rintro ⟨rfl, h'⟩; exact absurd h' h.ne'), if_neg (by rintro ⟨rfl, h'⟩; exact absurd h' h.ne)]
    simp
  · rfl

theorem dIm_genD (i : Fin N) (k : ℕ) :
    dIm (genD i) k = if k < i.val then genNorm i else if k = i.val then -i.val * genNorm i else 0 := by
  unfold dIm genD
  split_ifs with hk h1 h2 h1 h2
  · have : (⟨k, hk⟩ : Fin N) < i := h1
    rw [Matrix.diagonal_apply_eq, if_pos this]
  · subst h2; simp
  · simp only [Matrix.diagonal_apply_eq, Fin.lt_def, Fin.ext_iff, if_neg h1, if_neg h2]; rfl
  · have := i.isLt; omega
  · have := i.isLt; omega
  · rfl

theorem genNorm_mul {i : ℕ} (hi : 0 < i) : 2 * genNorm i * (i * genNorm i + i * (i * genNorm i)) = 1 := by
  unfold genNorm
  have hi' : (0 : ℝ) < i := by exact_mod_cast hi
  set s := Real.sqrt (2 * ((i : ℝ) * (i + 1))) with hs
  have h1 : s ^ 2 = 2 * ((i : ℝ) * (i + 1)) := Real.sq_sqrt (by positivity)
  have h2 : 0 < s := Real.sqrt_pos.2 (by positivity)
  have : 2 * (1 / s) * (i * (1 / s) + i * (i * (1 / s))) = 2 * ((i : ℝ) * (i + 1)) / s ^ 2 := by
    field_simp; ring
  rw [this, h1]
  have : (0 : ℝ) < 2 * ((i : ℝ) * (i + 1)) := by positivity
  exact div_self this.ne'

theorem coef_DD (i j : Fin N) (hi : 0 < i.val) : coef (genD i) (genD j) = if i = j then 1 else 0 := by
  rw [coef_genD]
  have hs : sIm (genD j) i.val = ∑ k ∈ Finset.range i.val,
      if k < j.val then genNorm j else if k = j.val then -j.val * genNorm j else 0 :=
    Finset.sum_congr rfl fun k _ => dIm_genD j k
  rcases lt_trichotomy i.val j.val with h | h | h
  · have hne : i ≠ j := fun e => by rw [e] at h; omega
    rw [if_neg hne, dIm_genD, if_pos h, hs, Finset.sum_congr rfl (g := fun _ => genNorm j)]
    · simp
    · intro k hk; rw [if_pos]; have := Finset.mem_range.1 hk; omega
  · have hij : i = j := Fin.ext h
    subst hij
    rw [if_pos rfl, dIm_genD, if_neg (lt_irrefl _), if_pos rfl, hs, Finset.sum_congr rfl (g := fun _ => genNorm i)]
    · have := genNorm_mul hi
      simp only [Finset.sum_const, Finset.card_range, nsmul_eq_mul]
      linarith
    · intro k hk; rw [if_pos (Finset.mem_range.1 hk)]
  · have hne : i ≠ j := fun e => by rw [e] at h; omega
    rw [if_neg hne, dIm_genD, if_neg (by omega), if_neg (by omega), hs]
    have : ∑ k ∈ Finset.range i.val, (if k < j.val then genNorm j else if k = j.val then -j.val * genNorm j else 0) = 0 := by
      rw [← Finset.sum_subset (s₁ := Finset.range (j.val + 1)) (by
        intro x; simp only [Finset.mem_range]; omega)
        (by intro x _ hx; simp only [Finset.mem_range] at hx; rw [if_neg (by omega), if_neg (by omega)])]
      rw [Finset.sum_range_succ, if_neg (lt_irrefl _), if_pos rfl,
        Finset.sum_congr rfl (g := fun _ => genNorm j) (fun k hk => if_pos (Finset.mem_range.1 hk))]
      simp
    rw [this]; ring

/-- Off-diagonal elements of a diagonal generator. -/
theorem genD_off (i a b : Fin N) (h : a ≠ b) : genD i a b = 0 := by
  unfold genD; rw [Matrix.diagonal_apply_ne _ h]

theorem coef_comm (A B : Mat N) : coef A B = coef B A := by
  unfold coef
  have : (B.conjTranspose * A).trace = star ((A.conjTranspose * B).trace) := by
    rw [← Matrix.trace_conjTranspose, Matrix.conjTranspose_mul, Matrix.conjTranspose_conjTranspose]
  rw [this]; simp

theorem pair_entries {q q' : ℕ} (hq : q < (upperPairs N).length) (hq' : q' < (upperPairs N).length) :
    genR (upperPairs N)[q'].1 (upperPairs N)[q'].2 (upperPairs N)[q].1 (upperPairs N)[q].2 = (if q' = q then 1 / 2 else 0) ∧
    genR (upperPairs N)[q'].1 (upperPairs N)[q'].2 (upperPairs N)[q].2 (upperPairs N)[q].1 = (if q' = q then -(1 / 2) else 0) ∧
    genI (upperPairs N)[q'].1 (upperPairs N)[q'].2 (upperPairs N)[q].1 (upperPairs N)[q].2 =
      (if q' = q then Complex.I / 2 else 0) ∧
    genI (upperPairs N)[q'].1 (upperPairs N)[q'].2 (upperPairs N)[q].2 (upperPairs N)[q].1 =
      (if q' = q then Complex.I / 2 else 0) := by
  have h1 : ((upperPairs N)[q'].1 = (upperPairs N)[q].1 ∧ (upperPairs N)[q'].2 = (upperPairs N)[q].2) ↔ q' = q := by
    rw [← Prod.ext_iff]
    exact nodup_upperPairs.getElem_inj_iff
  have h1' : ((upperPairs N)[q'].2 = (upperPairs N)[q].2 ∧ (upperPairs N)[q'].1 = (upperPairs N)[q].1) ↔ q' = q := by
    rw [and_comm]; exact h1
  have h2 : ((upperPairs N)[q'].2 = (upperPairs N)[q].1 ∧ (upperPairs N)[q'].1 = (upperPairs N)[q].2) ↔ False := by
    rw [iff_false]
    rintro ⟨x, y⟩
    have a := pair_lt hq'; have b := pair_lt hq
    rw [x, y] at a
    exact absurd a (not_lt.2 b.le)
  have h2' : ((upperPairs N)[q'].1 = (upperPairs N)[q].2 ∧ (upperPairs N)[q'].2 = (upperPairs N)[q].1) ↔ False := by
    rw [and_comm]; exact h2
  simp only [genR_apply, genI_apply, h1, h1', h2, h2', if_false]
  refine ⟨by simp, ?_, by simp, by simp⟩
  split_ifs <;> simp

theorem coef_genAt (hN : 0 < N) {k l : ℕ} (hk : k < N * N - 1) (hl : l < N * N - 1) :
    coef (genAt N k) (genAt N l) = if k = l then 1 else 0 := by
  have off : ∀ {q : ℕ} (hq : q < (upperPairs N).length) {i : ℕ} (h : i + 1 < N),
      coef (genR (upperPairs N)[q].1 (upperPairs N)[q].2) (genD ⟨i + 1, h⟩) = 0 ∧
      coef (genI (upperPairs N)[q].1 (upperPairs N)[q].2) (genD ⟨i + 1, h⟩) = 0 := by
    intro q hq i h
    have hp := pair_lt hq
    constructor
    · rw [coef_genR, genD_off _ _ _ hp.ne, genD_off _ _ _ hp.ne']; simp
    · rw [coef_genI, genD_off _ _ _ hp.ne, genD_off _ _ _ hp.ne']; simp
  rcases gen_cases hN hk with h | ⟨q, hq, rfl⟩ | ⟨q, hq, rfl⟩ <;>
    rcases gen_cases hN hl with h' | ⟨q', hq', rfl⟩ | ⟨q', hq', rfl⟩
  · rw [genAt_diag h, genAt_diag h', coef_DD _ _ (by simp)]
    simp
  · rw [genAt_diag h, genAt_even hq', coef_comm, (off hq' h).1, if_neg (by omega)]
  · rw [genAt_diag h, genAt_odd hq', coef_comm, (off hq' h).2, if_neg (by omega)]
  · rw [genAt_diag h', genAt_even hq, (off hq h').1, if_neg (by omega)]
  · obtain ⟨e1, e2, -, -⟩ := pair_entries hq hq'
    rw [genAt_even hq, genAt_even hq', coef_genR, e1, e2]
    by_cases hqq : q' = q
    · rw [if_pos hqq, if_pos hqq, if_pos (by omega)]; norm_num
    · rw [if_neg hqq, if_neg hqq, if_neg (by omega)]; simp
  · obtain ⟨-, -, e3, e4⟩ := pair_entries hq hq'
    rw [genAt_even hq, genAt_odd hq', coef_genR, e3, e4,
      if_neg (show ¬(N - 1 + 2 * q = N - 1 + 2 * q' + 1) by omega)]
    split_ifs <;> simp
  · rw [genAt_diag h', genAt_odd hq, (off hq h').2, if_neg (by omega)]
  · obtain ⟨e1, e2, -, -⟩ := pair_entries hq hq'
    rw [genAt_odd hq, genAt_even hq', coef_genI, e1, e2, if_neg (show ¬(N - 1 + 2 * q + 1 = N - 1 + 2 * q') by omega)]
    split_ifs <;> simp
  · obtain ⟨-, -, e3, e4⟩ := pair_entries hq hq'
    rw [genAt_odd hq, genAt_odd hq', coef_genI, e3, e4]
    by_cases hqq : q' = q
    · rw [if_pos hqq, if_pos (by omega)]
      simp; norm_num
    · rw [if_neg hqq, if_neg (by omega)]; simp

/-! ### Linear combinations of the generators -/

/-- The element with these coefficients. -/
noncomputable def algMat (c : Alg N) : Mat N := ∑ l, (c l : ℂ) • genAt N l.val

/-- Coefficient with a natural number as index. -/
noncomputable def cN (c : Alg N) (l : ℕ) : ℝ := if h : l < N * N - 1 then c ⟨l, h⟩ else 0

theorem cN_fin (c : Alg N) (l : Fin (N * N - 1)) : cN c l.val = c l := by simp [cN]

theorem sum_range_two {M : Type} [AddCommMonoid M] (f : ℕ → M) (b : ℕ) :
    ∑ x ∈ Finset.range (2 * b), f x = ∑ q ∈ Finset.range b, (f (2 * q) + f (2 * q + 1)) := by
  induction b with
  | zero => simp
  | succ b ih =>
    rw [show 2 * (b + 1) = 2 * b + 1 + 1 from by ring, Finset.sum_range_succ, Finset.sum_range_succ, ih,
      Finset.sum_range_succ, add_assoc]

theorem algMat_split (hN : 0 < N) (c : Alg N) :
    algMat c = ∑ i ∈ Finset.range (N - 1), (cN c i : ℂ) • genAt N i +
      ∑ q ∈ Finset.range (upperPairs N).length, ((cN c (N - 1 + 2 * q) : ℂ) • genAt N (N - 1 + 2 * q) +
        (cN c (N - 1 + 2 * q + 1) : ℂ) • genAt N (N - 1 + 2 * q + 1)) := by
  unfold algMat
  have h : ∀ l : Fin (N * N - 1), (c l : ℂ) • genAt N l.val = (fun k : ℕ => (cN c k : ℂ) • genAt N k) l.val := by
    intro l; simp only [cN_fin]
  rw [Finset.sum_congr rfl fun l _ => h l, Fin.sum_univ_eq_sum_range (fun k : ℕ => (cN c k : ℂ) • genAt N k),
    ← dim_alg hN, Finset.sum_range_add, sum_range_two]
  simp only [add_assoc]

theorem algMat_conj (c : Alg N) : (algMat c).conjTranspose = -algMat c := by
  unfold algMat
  rw [Matrix.conjTranspose_sum, ← Finset.sum_neg_distrib]
  apply Finset.sum_congr rfl
  intro l _
  rw [Matrix.conjTranspose_smul, genAt_conj, smul_neg]
  congr 2
  exact Complex.conj_ofReal _

theorem algMat_trace (hN : 0 < N) (c : Alg N) : (algMat c).trace = 0 := by
  unfold algMat
  rw [Matrix.trace_sum]
  apply Finset.sum_eq_zero
  intro l _
  rw [Matrix.trace_smul, genAt_trace hN l.isLt, smul_zero]

theorem algMat_off (hN : 0 < N) (c : Alg N) {q : ℕ} (hq : q < (upperPairs N).length) :
    algMat c (upperPairs N)[q].1 (upperPairs N)[q].2 = ⟨cN c (N - 1 + 2 * q) * 0.5, cN c (N - 1 + 2 * q + 1) * 0.5⟩ := by
  have hp := pair_lt hq
  rw [algMat_split hN, Matrix.add_apply, Matrix.sum_apply, Matrix.sum_apply, Finset.sum_eq_zero, zero_add,
    Finset.sum_eq_single q]
  · obtain ⟨e1, -, e3, -⟩ := pair_entries hq hq
    rw [Matrix.add_apply, Matrix.smul_apply, Matrix.smul_apply, genAt_even hq, genAt_odd hq, e1, e3, if_pos rfl, if_pos rfl]
    apply Complex.ext <;> simp <;> norm_num
  · intro p hp' hne
    have hpl : p < (upperPairs N).length := Finset.mem_range.1 hp'
    obtain ⟨e1, -, e3, -⟩ := pair_entries hq hpl
    rw [Matrix.add_apply, Matrix.smul_apply, Matrix.smul_apply, genAt_even hpl, genAt_odd hpl, e1, e3, if_neg hne, if_neg hne]
    simp
  · intro h; exact absurd (Finset.mem_range.2 hq) h
  · intro i hi
    have hi' : i + 1 < N := by have := Finset.mem_range.1 hi; omega
    rw [Matrix.smul_apply, genAt_diag hi', genD_off _ _ _ hp.ne, smul_zero]

/-- The diagonal elements. -/
noncomputable def diagAt (c : ℕ → ℝ) (a m : ℕ) : ℝ := ∑ i ∈ Finset.Ico (a + 1) m, c (i - 1) * genNorm i - a * (c (a - 1) * genNorm a)

theorem algMat_diag (hN : 0 < N) (c : Alg N) (a : Fin N) : algMat c a a = ⟨0, diagAt (cN c) a N⟩ := by
  rw [algMat_split hN, Matrix.add_apply, Matrix.sum_apply, Matrix.sum_apply]
  have h2 : ∑ q ∈ Finset.range (upperPairs N).length, ((cN c (N - 1 + 2 * q) : ℂ) • genAt N (N - 1 + 2 * q) +
        (cN c (N - 1 + 2 * q + 1) : ℂ) • genAt N (N - 1 + 2 * q + 1)) a a = 0 := by
    apply Finset.sum_eq_zero
    intro q hq
    have hql : q < (upperPairs N).length := Finset.mem_range.1 hq
    have hp := pair_lt hql
    have h1 : ¬((upperPairs N)[q].1 = a ∧ (upperPairs N)[q].2 = a) := by rintro ⟨x, y⟩; rw [x, y] at hp; exact absurd hp (lt_irrefl _)
    have h3 : ¬((upperPairs N)[q].2 = a ∧ (upperPairs N)[q].1 = a) := by rintro ⟨x, y⟩; rw [x, y] at hp; exact absurd hp (lt_irrefl _)
    rw [Matrix.add_apply, Matrix.smul_apply, Matrix.smul_apply, genAt_even hql, genAt_odd hql, genR_apply, genI_apply,
      if_neg h1, if_neg h3, if_neg h1, if_neg h3]
    simp
  rw [h2, add_zero]
  have h3 : ∀ i ∈ Finset.range (N - 1), ((cN c i : ℂ) • genAt N i) a a =
      ((⟨0, (if a.val < i + 1 then cN c i * genNorm (i + 1) else 0) + (if a.val = i + 1 then -(a.val * (cN c i * genNorm (i + 1))) else 0)⟩ : ℂ)) := by
    intro i hi
    have hi' : i + 1 < N := by have := Finset.mem_range.1 hi; omega
    rw [Matrix.smul_apply, genAt_diag hi']
    simp only [genD, Matrix.diagonal_apply_eq, Fin.lt_def, Fin.ext_iff]
    by_cases h1 : a.val < i + 1
    · rw [if_pos h1, if_pos h1, if_neg (by omega)]
      apply Complex.ext <;> simp
    · rw [if_neg h1, if_neg h1]
      by_cases h4 : a.val = i + 1
      · rw [if_pos h4, if_pos h4]
        apply Complex.ext <;> simp [h4]
        ring
      · rw [if_neg h4, if_neg h4]
        apply Complex.ext <;> simp
  rw [Finset.sum_congr rfl h3]
  have h5 : ∀ g : ℕ → ℝ, ∑ i ∈ Finset.range (N - 1), (⟨0, g i⟩ : ℂ) = ⟨0, ∑ i ∈ Finset.range (N - 1), g i⟩ := by
    intro g; apply Complex.ext <;> simp
  rw [h5, Finset.sum_add_distrib]
  congr 1
  unfold diagAt
  rw [sub_eq_add_neg]
  congr 1
  · rw [← Finset.sum_filter]
    have h6 := Finset.sum_Ico_add' (fun i => cN c (i - 1) * genNorm i) a.val (N - 1) 1
    have h7 : N - 1 + 1 = N := by omega
    rw [h7] at h6
    rw [← h6]
    apply Finset.sum_congr
    · ext i; simp only [Finset.mem_filter, Finset.mem_range, Finset.mem_Ico]; omega
    · intro i _; simp
  · by_cases ha : a.val = 0
    · rw [Finset.sum_eq_zero]
      · simp [ha]
      · intro i _; rw [if_neg (by omega)]
    · rw [Finset.sum_eq_single (a.val - 1)]
      · rw [if_pos (by omega), show a.val - 1 + 1 = a.val from by omega]
      · intro i _ hi; rw [if_neg (by omega)]
      · intro h; exfalso; apply h; rw [Finset.mem_range]; have := a.isLt; omega

/-! ### The loops of `expand` -/

theorem sqrt_half_div {i : ℕ} : Real.sqrt (0.5 / ((i : ℝ) * ((i : ℝ) + 1))) = genNorm i := by
  unfold genNorm
  have : (0.5 : ℝ) / ((i : ℝ) * ((i : ℝ) + 1)) = (2 * ((i : ℝ) * ((i : ℝ) + 1)))⁻¹ := by
    rw [mul_inv, div_eq_mul_inv]; norm_num
  rw [this, Real.sqrt_inv, one_div]

theorem expandDiag_run (c : Alg N) (m : ℕ) (hm : 1 ≤ m) (hmN : m ≤ N) (d : Buf ℝ)
    (hd : ∀ j, j < m → d j = some (diagAt (cN c) j m)) :
    ∃ d', expandDiag c ((List.finRange N).drop m) d = some d' ∧ ∀ j, j < N → d' j = some (diagAt (cN c) j N) := by
  by_cases h : m < N
  · rw [finRange_drop_cons h]
    have hw : m - 1 < N * N - 1 := lt_dim (by omega)
    simp only [expandDiag, hw, dif_pos]
    apply expandDiag_run c (m + 1) (by omega) (by omega)
    intro j hj
    have hc : c ⟨m - 1, hw⟩ = cN c (m - 1) := by simp [cN, hw]
    rw [hc, sqrt_half_div]
    by_cases hjm : j = m
    · subst hjm
      rw [Function.update_self]
      congr 1
      simp [diagAt]
    · rw [Function.update_of_ne hjm, if_pos (by omega), hd j (by omega)]
      simp only [Option.map_some]
      congr 1
      unfold diagAt
      rw [Finset.sum_Ico_succ_top (by omega)]
      ring
  · have : m = N := by omega
    subst this
    rw [finRange_drop_all le_rfl]
    exact ⟨d, rfl, hd⟩
termination_by N - m

theorem expandOff_run (c : Alg N) (inv2 : ℝ) (ps : List (Fin N × Fin N)) (k : ℕ) (m : Fin N → Fin N → Option ℂ)
    (hk : k + 2 * ps.length ≤ N * N - 1) (hlt : ∀ p ∈ ps, p.1 < p.2) (hnd : ps.Nodup) :
    ∃ m', expandOff c inv2 ps k m = some m' ∧ (∀ a b, (a, b) ∉ ps → (b, a) ∉ ps → m' a b = m a b) ∧
      ∀ (q : ℕ) (h : q < ps.length),
        m' ps[q].1 ps[q].2 = some ⟨cN c (k + 2 * q) * inv2, cN c (k + 2 * q + 1) * inv2⟩ ∧
        m' ps[q].2 ps[q].1 = some (-star (⟨cN c (k + 2 * q) * inv2, cN c (k + 2 * q + 1) * inv2⟩ : ℂ)) := by
  induction ps generalizing k m with
  | nil => exact ⟨m, rfl, fun _ _ _ _ => rfl, fun q h => absurd h (by simp)⟩
  | cons p ps ih =>
    obtain ⟨i, j⟩ := p
    simp only [List.length_cons] at hk
    have h0 : k < N * N - 1 := by omega
    have h1 : k + 1 < N * N - 1 := by omega
    have hij : i < j := hlt (i, j) (by simp)
    simp only [expandOff, h1, dif_pos]
    have hc0 : c ⟨k, by omega⟩ = cN c k := by simp [cN, h0]
    have hc1 : c ⟨k + 1, h1⟩ = cN c (k + 1) := by simp [cN, h1]
    rw [hc0, hc1]
    set v : ℂ := ⟨cN c k * inv2, cN c (k + 1) * inv2⟩ with hv
    set m1 := Function.update m i (Function.update (m i) j (some v)) with hm1
    set m2 := Function.update m1 j (Function.update (m1 j) i (some (-star v))) with hm2
    have hm2ij : m2 i j = some v := by
      rw [hm2, Function.update_of_ne hij.ne, hm1, Function.update_self, Function.update_self]
    have hm2ji : m2 j i = some (-star v) := by
      rw [hm2, Function.update_self, Function.update_self]
    have hm2o : ∀ a b, (a, b) ≠ (i, j) → (b, a) ≠ (i, j) → m2 a b = m a b := by
      intro a b h h'
      rw [hm2]
      by_cases ha : a = j
      · subst ha
        rw [Function.update_self]
        have hb : b ≠ i := fun e => h' (by rw [e])
        rw [Function.update_of_ne hb, hm1, Function.update_of_ne hij.ne']
      · rw [Function.update_of_ne ha, hm1]
        by_cases ha' : a = i
        · subst ha'
          have hb : b ≠ j := fun e => h (by rw [e])
          rw [Function.update_self, Function.update_of_ne hb]
        · rw [Function.update_of_ne ha']
    rw [List.nodup_cons] at hnd
    obtain ⟨m', hm', ho, hq⟩ := ih (k + 2) m2 (by omega) (fun p hp => hlt p (by simp [hp])) hnd.2
    refine ⟨m', hm', ?_, ?_⟩
    · intro a b h h'
      simp only [List.mem_cons, not_or] at h h'
      rw [ho a b h.2 h'.2, hm2o a b h.1 h'.1]
    · intro q h
      have hji : (j, i) ∉ ps := fun hh => absurd (hlt (j, i) (by simp [hh])) (not_lt.2 hij.le)
      cases q with
      | zero =>
        simp only [List.getElem_cons_zero, Nat.mul_zero, Nat.add_zero]
        exact ⟨by rw [ho i j hnd.1 hji, hm2ij], by rw [ho j i hji hnd.1, hm2ji]⟩
      | succ q =>
        have := hq q (by simpa using h)
        simp only [List.getElem_cons_succ]
        rw [show k + 2 + 2 * q = k + 2 * (q + 1) from by ring] at this
        exact this

theorem algMat_smul (s : ℝ) (c : Alg N) : algMat (s • c) = (s : ℂ) • algMat c := by
  unfold algMat
  rw [Finset.smul_sum]
  apply Finset.sum_congr rfl
  intro l _
  rw [smul_smul]
  simp

theorem expandScaledRun_eq (hN : 0 < N) (c : Alg N) (scf : ℝ) :
    expandScaledRun c scf = some ((scf : ℂ) • algMat c) := by
  have hf : List.finRange N = ⟨0, hN⟩ :: (List.finRange N).drop 1 := by
    have := finRange_drop_cons hN; simpa using this
  obtain ⟨d', hd', hd⟩ := expandDiag_run c 1 le_rfl hN (fun j => if j = 0 then some 0 else none) (by
    intro j hj
    have : j = 0 := by omega
    subst this
    simp [diagAt])
  obtain ⟨m', hm', ho, hq⟩ := expandOff_run c (0.5 * scf) (upperPairs N) (N - 1)
    (fun i j => if i = j then (d' i.val).map fun r => (⟨0, scf * r⟩ : ℂ) else none) (le_of_eq (dim_alg hN))
    (fun p hp => mem_upperPairs.1 hp) nodup_upperPairs
  unfold expandScaledRun
  rw [hf]
  simp only [hd', hm']
  have key : ∀ a b, m' a b = some (((scf : ℂ) • algMat c) a b) := by
    intro a b
    rw [Matrix.smul_apply]
    rcases lt_trichotomy a b with h | h | h
    · obtain ⟨q, hql, hqe⟩ := List.mem_iff_getElem.1 (mem_upperPairs.2 (show ((a, b) : Fin N × Fin N).1 < (a, b).2 from h))
      have h1 := (hq q hql).1
      have h2 := algMat_off hN c hql
      rw [hqe] at h1 h2
      simp only at h1 h2
      rw [h1, h2]
      congr 1
      apply Complex.ext <;> simp <;> ring
    · subst h
      rw [ho a a (fun hh => absurd (mem_upperPairs.1 hh) (lt_irrefl _)) (fun hh => absurd (mem_upperPairs.1 hh) (lt_irrefl _))]
      rw [if_pos rfl, hd a.val a.isLt, algMat_diag hN]
      simp only [Option.map_some]
      congr 1
      apply Complex.ext <;> simp
    · obtain ⟨q, hql, hqe⟩ := List.mem_iff_getElem.1 (mem_upperPairs.2 (show ((b, a) : Fin N × Fin N).1 < (b, a).2 from h))
      have h1 := (hq q hql).2
      have h2 := algMat_off hN c hql
      rw [hqe] at h1 h2
      simp only at h1 h2
      have h3 : algMat c a b = -star (algMat c b a) := by
        have := congrFun (congrFun (algMat_conj c) a) b
        rw [Matrix.conjTranspose_apply, Matrix.neg_apply] at this
        rw [this, neg_neg]
      rw [h1, h3, h2]
      congr 1
      apply Complex.ext <;> simp <;> ring
  rw [if_pos (fun i j => by rw [key i j]; rfl)]
  congr 1
  ext i j
  simp only [Matrix.of_apply]
  rw [key i j]; rfl

theorem expandScaled_eq (hN : 0 < N) (c : Alg N) (scf : ℝ) : expandScaled c scf = (scf : ℂ) • algMat c := by
  unfold expandScaled; rw [expandScaledRun_eq hN]; rfl

theorem expand_eq (hN : 0 < N) (c : Alg N) : expand c = algMat c := by
  unfold expand expandRun; rw [expandScaledRun_eq hN]; simp

/-! ### Round trips -/

theorem coef_add (G A B : Mat N) : coef G (A + B) = coef G A + coef G B := by
  unfold coef; rw [mul_add, Matrix.trace_add, Complex.add_re]; ring

theorem coef_smul (G A : Mat N) (s : ℝ) : coef G ((s : ℂ) • A) = s * coef G A := by
  unfold coef; rw [Matrix.mul_smul, Matrix.trace_smul, smul_eq_mul, Complex.re_ofReal_mul]; ring

theorem coef_sum {ι : Type} (G : Mat N) (s : Finset ι) (A : ι → Mat N) : coef G (∑ i ∈ s, A i) = ∑ i ∈ s, coef G (A i) := by
  unfold coef
  rw [Finset.mul_sum, Matrix.trace_sum, Complex.re_sum, Finset.mul_sum]

theorem coef_algMat (hN : 0 < N) (c : Alg N) (l : Fin (N * N - 1)) : coef (genAt N l.val) (algMat c) = c l := by
  unfold algMat
  rw [coef_sum, Finset.sum_eq_single l]
  · rw [coef_smul, coef_genAt hN l.isLt l.isLt, if_pos rfl, mul_one]
  · intro k _ hk
    rw [coef_smul, coef_genAt hN l.isLt k.isLt, if_neg (fun h => hk (Fin.ext h.symm)), mul_zero]
  · simp

theorem sIm_telescope (A : Mat N) (a : ℕ) (m : ℕ) (h : a + 1 ≤ m) :
    ∑ i ∈ Finset.Ico (a + 1) m, (sIm A i - i * dIm A i) / ((i : ℝ) * (i + 1)) = sIm A (a + 1) / (a + 1) - sIm A m / m := by
  induction m, h using Nat.le_induction with
  | base => simp
  | succ m hm ih =>
    rw [Finset.sum_Ico_succ_top hm, ih]
    have hm0 : (m : ℝ) ≠ 0 := Nat.cast_ne_zero.2 (by omega)
    have hm1 : (m : ℝ) + 1 ≠ 0 := by positivity
    have hs : sIm A (m + 1) = sIm A m + dIm A m := by simp [sIm, Finset.sum_range_succ]
    rw [hs]
    push_cast
    field_simp
    ring

theorem genNorm_sq {i : ℕ} (hi : 0 < i) : 2 * genNorm i * genNorm i = 1 / ((i : ℝ) * (i + 1)) := by
  unfold genNorm
  have hi' : (0 : ℝ) < i := by exact_mod_cast hi
  set s := Real.sqrt (2 * ((i : ℝ) * (i + 1))) with hs
  have h1 : s ^ 2 = 2 * ((i : ℝ) * (i + 1)) := Real.sq_sqrt (by positivity)
  have h2 : 0 < s := Real.sqrt_pos.2 (by positivity)
  have : 2 * (1 / s) * (1 / s) = 2 / s ^ 2 := by field_simp
  rw [this, h1]
  field_simp

/-- The traceless antihermitian part. -/
noncomputable def algPart (A : Mat N) : Mat N :=
  (1 / 2 : ℂ) • (A - A.conjTranspose) - ((((1 / 2 : ℂ) • (A - A.conjTranspose)).trace) / N) • (1 : Mat N)

theorem algPart_conj (A : Mat N) : (algPart A).conjTranspose = -algPart A := by
  unfold algPart
  have hh : star (1 / 2 : ℂ) = 1 / 2 := by apply Complex.ext <;> simp
  generalize hB : (1 / 2 : ℂ) • (A - A.conjTranspose) = B
  have hBc : B.conjTranspose = -B := by
    rw [← hB, Matrix.conjTranspose_smul, Matrix.conjTranspose_sub, Matrix.conjTranspose_conjTranspose, hh, ← smul_neg, neg_sub]
  have ht : star B.trace = -B.trace := by
    rw [← Matrix.trace_conjTranspose, hBc, Matrix.trace_neg]
  rw [Matrix.conjTranspose_sub, hBc, Matrix.conjTranspose_smul, Matrix.conjTranspose_one, star_div₀, ht, star_natCast,
    neg_sub, neg_div, neg_smul]
  abel

theorem trace_im (A : Mat N) : A.trace.im = sIm A N := by
  unfold Matrix.trace sIm
  rw [Complex.im_sum, ← Fin.sum_univ_eq_sum_range]
  apply Finset.sum_congr rfl
  intro j _
  simp [dIm]

theorem algMat_coef (hN : 0 < N) (A : Mat N) : algMat (fun l => coef (genAt N l.val) A) = algPart A := by
  have hc : ∀ k, k < N * N - 1 → cN (fun l : Fin (N * N - 1) => coef (genAt N l.val) A) k = coef (genAt N k) A := by
    intro k hk; simp [cN, hk]
  have hupper : ∀ a b : Fin N, a < b → algMat (fun l => coef (genAt N l.val) A) a b = algPart A a b := by
    intro a b h
    obtain ⟨q, hql, hqe⟩ := List.mem_iff_getElem.1 (mem_upperPairs.2 (show ((a, b) : Fin N × Fin N).1 < (a, b).2 from h))
    have h2 := algMat_off hN (fun l : Fin (N * N - 1) => coef (genAt N l.val) A) hql
    have hd := dim_alg hN
    rw [hc _ (by omega), hc _ (by omega), genAt_even hql, genAt_odd hql, coef_genR, coef_genI] at h2
    rw [hqe] at h2
    simp only at h2
    rw [h2]
    unfold algPart
    rw [Matrix.sub_apply, Matrix.smul_apply (A := (1 : Mat N)), Matrix.one_apply_ne h.ne, smul_zero, sub_zero, Matrix.smul_apply,
      Matrix.sub_apply, Matrix.conjTranspose_apply]
    apply Complex.ext <;> simp <;> ring
  ext a b
  rcases lt_trichotomy a b with h | h | h
  · exact hupper a b h
  · subst h
    rw [algMat_diag hN]
    have htr : ((1 / 2 : ℂ) • (A - A.conjTranspose)).trace = ⟨0, sIm A N⟩ := by
      rw [Matrix.trace_smul, Matrix.trace_sub, Matrix.trace_conjTranspose, ← trace_im]
      apply Complex.ext <;> simp
      ring
    unfold algPart
    rw [htr, Matrix.sub_apply, Matrix.smul_apply (A := (1 : Mat N)), Matrix.one_apply_eq, Matrix.smul_apply,
      Matrix.sub_apply, Matrix.conjTranspose_apply]
    have hdA : (A a a).im = dIm A a.val := by simp [dIm]
    have hN' : (N : ℂ) = ((N : ℝ) : ℂ) := by simp
    have himg : diagAt (cN fun l : Fin (N * N - 1) => coef (genAt N l.val) A) a N = dIm A a.val - sIm A N / N := by
      unfold diagAt
      have h1 : ∀ i ∈ Finset.Ico (a.val + 1) N, cN (fun l : Fin (N * N - 1) => coef (genAt N l.val) A) (i - 1) * genNorm i =
          (sIm A i - i * dIm A i) / ((i : ℝ) * (i + 1)) := by
        intro i hi
        have hi' := Finset.mem_Ico.1 hi
        have hi1 : i - 1 + 1 < N := by omega
        rw [hc _ (lt_dim hi1), genAt_diag hi1, coef_genD]
        simp only [show i - 1 + 1 = i from by omega]
        have := genNorm_sq (show 0 < i by omega)
        rw [div_eq_mul_one_div, ← this]
        ring
      rw [Finset.sum_congr rfl h1, sIm_telescope A a.val N a.isLt]
      have hs : sIm A (a.val + 1) = sIm A a.val + dIm A a.val := by simp [sIm, Finset.sum_range_succ]
      by_cases ha : a.val = 0
      · rw [hs, ha]; simp [sIm]
      · have ha1 : a.val - 1 + 1 < N := by have := a.isLt; omega
        rw [hc _ (lt_dim ha1), genAt_diag ha1, coef_genD]
        simp only [show a.val - 1 + 1 = a.val from by omega]
        have hn := genNorm_sq (show 0 < a.val by omega)
        have ha0 : (0 : ℝ) < a.val := by exact_mod_cast (Nat.pos_of_ne_zero ha)
        have : (a.val : ℝ) * (2 * genNorm a.val * (sIm A a.val - a.val * dIm A a.val) * genNorm a.val) =
            (sIm A a.val - a.val * dIm A a.val) / (a.val + 1) := by
          have : (a.val : ℝ) * (2 * genNorm a.val * (sIm A a.val - a.val * dIm A a.val) * genNorm a.val) =
            (2 * genNorm a.val * genNorm a.val) * (a.val * (sIm A a.val - a.val * dIm A a.val)) := by ring
          rw [this, hn]
          field_simp
        rw [this, hs]
        field_simp
        ring
    rw [himg, hN']
    apply Complex.ext
    · simp [Complex.div_re]
    · simp [hdA]
      ring
  · have h1 : algMat (fun l => coef (genAt N l.val) A) a b = -star (algMat (fun l => coef (genAt N l.val) A) b a) := by
      have := congrFun (congrFun (algMat_conj (fun l : Fin (N * N - 1) => coef (genAt N l.val) A)) a) b
      rw [Matrix.conjTranspose_apply, Matrix.neg_apply] at this
      rw [this, neg_neg]
    have h2 : algPart A a b = -star (algPart A b a) := by
      have := congrFun (congrFun (algPart_conj A) a) b
      rw [Matrix.conjTranspose_apply, Matrix.neg_apply] at this
      rw [this, neg_neg]
    rw [h1, h2, hupper b a h]

theorem expand_project (hN : 0 < N) (A : Mat N) : expand (project A) = algPart A := by
  rw [expand_eq hN, project_eq hN, algMat_coef hN]

theorem project_expand (hN : 0 < N) (c : Alg N) : project (expand c) = c := by
  rw [expand_eq hN, project_eq hN]
  funext l
  exact coef_algMat hN c l

end Hila
