import Verif.Lemmas.SUN
import Mathlib.LinearAlgebra.UnitaryGroup

/-!
# C50: coordinates of the algebra of SU(N)

Specification: `λ_l`, `l < N*N - 1`, are antihermitian and traceless with `2 Re tr(λ_k† λ_l) = δ_kl`; the coordinates of
a matrix are `2 Re tr(λ_l† A)`, and the matrix of a vector of coordinates is `∑ a_l λ_l`. `algPart A` is the
antihermitian traceless part of `A`.
-/

namespace Hila

variable {N : ℕ}

/-! ### Sparse matrices -/

/-- The matrix of a list of elements. -/
noncomputable def gsum (g : AlgGen N) : Mat N := (g.map fun e => Matrix.single e.1 e.2.1 e.2.2).sum

theorem pushAll_eq (g : AlgGen N) (es : List (Fin N × Fin N × ℂ)) (h : g.length + es.length ≤ N) :
    g.pushAll es = some (g ++ es) := by
  induction es generalizing g with
  | nil => simp [AlgGen.pushAll]
  | cons e es ih =>
    simp only [List.length_cons] at h
    rw [AlgGen.pushAll, AlgGen.push, if_pos (by omega)]
    simp only
    rw [ih _ (by simp; omega)]
    simp

theorem pushAll_full (g : AlgGen N) (es : List (Fin N × Fin N × ℂ)) (h : N < g.length + es.length) (he : g.length ≤ N) :
    g.pushAll es = none := by
  induction es generalizing g with
  | nil => simp at h; omega
  | cons e es ih =>
    simp only [List.length_cons] at h
    rw [AlgGen.pushAll, AlgGen.push]
    by_cases hg : g.length < N
    · rw [if_pos hg]
      simp only
      exact ih _ (by simp; omega) (by simp; omega)
    · rw [if_neg hg]

theorem toMatrix_fold (g : AlgGen N) (m : Mat N) (hnd : (g.map fun e => (e.1, e.2.1)).Nodup)
    (h0 : ∀ e ∈ g, m e.1 e.2.1 = 0) :
    g.foldl (fun m e => m.updateRow e.1 (Function.update (m e.1) e.2.1 e.2.2)) m = m + gsum g := by
  induction g generalizing m with
  | nil => simp [gsum]
  | cons e g ih =>
    rw [List.map_cons, List.nodup_cons] at hnd
    rw [List.foldl_cons]
    have hu : m.updateRow e.1 (Function.update (m e.1) e.2.1 e.2.2) = m + Matrix.single e.1 e.2.1 e.2.2 := by
      ext a b
      rw [Matrix.add_apply, Matrix.single_apply]
      by_cases ha : a = e.1
      · subst ha
        rw [Matrix.updateRow_self]
        by_cases hb : b = e.2.1
        · subst hb
          rw [Function.update_self, if_pos ⟨rfl, rfl⟩, h0 e (by simp), zero_add]
        · rw [Function.update_of_ne hb, if_neg (fun h => hb h.2.symm), add_zero]
      · rw [Matrix.updateRow_ne ha, if_neg (fun h => ha h.1.symm), add_zero]
    rw [hu, ih (m + Matrix.single e.1 e.2.1 e.2.2) hnd.2]
    · simp only [gsum, List.map_cons, List.sum_cons, add_assoc]
    · intro f hf
      rw [Matrix.add_apply, h0 f (by simp [hf]), Matrix.single_apply, if_neg, add_zero]
      rintro ⟨h1, h2⟩
      apply hnd.1
      rw [List.mem_map]
      exact ⟨f, hf, by rw [h1, h2]⟩

theorem toMatrix_eq (g : AlgGen N) (hnd : (g.map fun e => (e.1, e.2.1)).Nodup) : g.toMatrix = gsum g := by
  unfold AlgGen.toMatrix
  rw [toMatrix_fold g 0 hnd (fun _ _ => rfl), zero_add]

/-! ### The list of generators -/

/-- Elements of a diagonal generator. -/
noncomputable def gDlist (i : Fin N) : AlgGen N :=
  ((List.finRange N).filter fun j => j < i).map (fun j =>
    (j, j, (⟨0, 1 / Real.sqrt (2 * (i.val * (i.val + 1)))⟩ : ℂ))) ++
    [(i, i, ⟨0, -i.val / Real.sqrt (2 * (i.val * (i.val + 1)))⟩)]

theorem length_filter_gt (i : Fin N) : ((List.finRange N).filter fun j => j < i).length = i.val := by
  have h1 : ((List.finRange N).filter fun j => j < i).length = (Finset.univ.filter fun j => j < i).card := by
    rw [← List.toFinset_card_of_nodup ((List.nodup_finRange N).filter _)]
    congr 1; ext j; simp
  rw [h1]
  have h2 : (Finset.univ.filter fun j => j < i) = Finset.Iio i := by ext; simp
  rw [h2, Fin.card_Iio]

theorem gDlist_length (i : Fin N) : (gDlist i).length = i.val + 1 := by
  unfold gDlist
  rw [List.length_append, List.length_map, length_filter_gt]; rfl

theorem gDlist_nodup (i : Fin N) : ((gDlist i).map fun e => (e.1, e.2.1)).Nodup := by
  unfold gDlist
  rw [List.map_append, List.map_map, List.nodup_append]
  refine ⟨((List.nodup_finRange N).filter _).map (fun a b h => by simpa using h), by simp, ?_⟩
  intro a ha b hb
  rw [List.mem_map] at ha
  obtain ⟨j, hj, rfl⟩ := ha
  simp only [List.map_cons, List.map_nil, List.mem_singleton] at hb
  rw [hb]
  simp only [List.mem_filter, decide_eq_true_eq] at hj
  simp only [Function.comp, ne_eq, Prod.mk.injEq, not_and]
  intro h; exact absurd h hj.2.ne

theorem sum_list_apply (l : List (Mat N)) (a b : Fin N) : l.sum a b = (l.map fun m => m a b).sum := by
  induction l with
  | nil => rfl
  | cons m l ih => rw [List.sum_cons, List.map_cons, List.sum_cons, Matrix.add_apply, ih]

theorem gDlist_gsum (i : Fin N) : gsum (gDlist i) = genD i := by
  unfold gsum gDlist
  rw [List.map_append, List.sum_append, List.map_map]
  ext a b
  rw [Matrix.add_apply, sum_list_apply, List.map_map]
  simp only [List.map_cons, List.map_nil, List.sum_cons, List.sum_nil, add_zero]
  have h1 : (List.map ((fun m : Mat N => m a b) ∘ (fun e : Fin N × Fin N × ℂ => Matrix.single e.1 e.2.1 e.2.2) ∘ fun j =>
      (j, j, (⟨0, 1 / Real.sqrt (2 * (i.val * (i.val + 1)))⟩ : ℂ))) ((List.finRange N).filter fun j => j < i)).sum =
      ∑ j ∈ Finset.univ.filter (fun j => j < i), (Matrix.single j j (⟨0, genNorm i⟩ : ℂ) : Mat N) a b := by
    rw [← List.sum_toFinset _ ((List.nodup_finRange N).filter _)]
    apply Finset.sum_congr
    · ext j; simp
    · intro j _; rfl
  rw [h1]
  by_cases hab : a = b
  · subst hab
    simp only [genD, Matrix.diagonal_apply_eq, Matrix.single_apply, and_self]
    rw [Finset.sum_ite_eq' (Finset.univ.filter fun j => j < i) a]
    simp only [Finset.mem_filter, Finset.mem_univ, true_and]
    by_cases ha : a < i
    · rw [if_pos ha, if_pos ha, if_neg ha.ne', add_zero]
    · rw [if_neg ha, if_neg ha, zero_add]
      by_cases ha' : i = a
      · rw [if_pos ha', if_pos ha'.symm]; unfold genNorm; congr 1; ring
      · rw [if_neg ha', if_neg (fun h => ha' h.symm)]
  · rw [genD_off _ _ _ hab, Finset.sum_eq_zero]
    · rw [Matrix.single_apply, if_neg, add_zero]
      rintro ⟨rfl, h⟩; exact hab h
    · intro j _
      rw [Matrix.single_apply, if_neg]
      rintro ⟨rfl, h⟩; exact hab h

theorem genDiagLoop_run (m : ℕ) (hm : 1 ≤ m) (b : Buf (AlgGen N)) :
    ∃ b', genDiagLoop ((List.finRange N).drop m) b = some b' ∧ (∀ l, (hl : m ≤ l + 1 ∧ l + 1 < N) → b' l = some (gDlist ⟨l + 1, hl.2⟩)) ∧
      ∀ l, ¬(m ≤ l + 1 ∧ l + 1 < N) → b' l = b l := by
  by_cases h : m < N
  · rw [finRange_drop_cons h]
    have hw : m - 1 < N * N - 1 := lt_dim (by omega)
    have hp : AlgGen.pushAll [] (((List.finRange N).filter fun j => j < (⟨m, h⟩ : Fin N)).map (fun j =>
        (j, j, (⟨0, 1 / Real.sqrt (2 * (((⟨m, h⟩ : Fin N).val : ℝ) * ((⟨m, h⟩ : Fin N).val + 1)))⟩ : ℂ))) ++
        [(⟨m, h⟩, ⟨m, h⟩, ⟨0, -(((⟨m, h⟩ : Fin N).val : ℝ)) / Real.sqrt (2 * (((⟨m, h⟩ : Fin N).val : ℝ) * ((⟨m, h⟩ : Fin N).val + 1)))⟩)]) =
        some (gDlist ⟨m, h⟩) := by
      have := pushAll_eq [] (gDlist ⟨m, h⟩) (by rw [gDlist_length]; simp; omega)
      exact this
    simp only [genDiagLoop, hp, wr, hw, if_true]
    obtain ⟨b', hb', h1, h2⟩ := genDiagLoop_run (m + 1) (by omega) (Function.update b (m - 1) (some (gDlist ⟨m, h⟩)))
    refine ⟨b', hb', ?_, ?_⟩
    · intro l hl
      by_cases hlm : m + 1 ≤ l + 1
      · exact h1 l ⟨hlm, hl.2⟩
      · rw [h2 l (by omega)]
        have : l = m - 1 := by omega
        subst this
        rw [Function.update_self]
        congr 2
        apply Fin.ext
        simp only
        omega
    · intro l hl
      rw [h2 l (by omega), Function.update_of_ne (by omega)]
  · rw [finRange_drop_all (by omega)]
    exact ⟨b, rfl, fun l hl => by omega, fun l _ => rfl⟩
termination_by N - m

/-- Elements of the other generators. -/
noncomputable def gRlist (i j : Fin N) : AlgGen N := [(i, j, (⟨0.5, 0⟩ : ℂ)), (j, i, ⟨-0.5, 0⟩)]

/-- Elements of the other generators. -/
noncomputable def gIlist (i j : Fin N) : AlgGen N := [(i, j, (⟨0, 0.5⟩ : ℂ)), (j, i, ⟨0, 0.5⟩)]

theorem gRlist_gsum (i j : Fin N) : gsum (gRlist i j) = genR i j := by
  unfold gsum gRlist genR
  simp only [List.map_cons, List.map_nil, List.sum_cons, List.sum_nil, add_zero]
  have h2 : -Matrix.single j i (1 / 2 : ℂ) = (Matrix.single j i (-(1 / 2) : ℂ) : Mat N) := by
    ext a b; rw [Matrix.neg_apply, Matrix.single_apply, Matrix.single_apply]; split_ifs <;> simp
  rw [sub_eq_add_neg, h2]
  congr 2 <;> apply Complex.ext <;> norm_num

theorem gIlist_gsum (i j : Fin N) : gsum (gIlist i j) = genI i j := by
  unfold gsum gIlist genI
  simp only [List.map_cons, List.map_nil, List.sum_cons, List.sum_nil, add_zero]
  congr 2 <;> apply Complex.ext <;> norm_num

theorem genOffLoop_run (ps : List (Fin N × Fin N)) (k : ℕ) (b : Buf (AlgGen N))
    (hk : k + 2 * ps.length ≤ N * N - 1) (hlt : ∀ p ∈ ps, p.1 < p.2) :
    ∃ b', genOffLoop ps k b = some b' ∧ (∀ l, l < k → b' l = b l) ∧
      ∀ (q : ℕ) (h : q < ps.length), b' (k + 2 * q) = some (gRlist ps[q].1 ps[q].2) ∧
        b' (k + 2 * q + 1) = some (gIlist ps[q].1 ps[q].2) := by
  induction ps generalizing k b with
  | nil => exact ⟨b, rfl, fun _ _ => rfl, fun q h => absurd h (by simp)⟩
  | cons p ps ih =>
    obtain ⟨i, j⟩ := p
    simp only [List.length_cons] at hk
    have h0 : k < N * N - 1 := by omega
    have h1 : k + 1 < N * N - 1 := by omega
    have hij : i < j := hlt (i, j) (by simp)
    have hN2 : 2 ≤ N := by have := j.isLt; have : i.val < j.val := hij; omega
    have p1 : AlgGen.pushAll [] [(i, j, (⟨0.5, 0⟩ : ℂ)), (j, i, ⟨-0.5, 0⟩)] = some (gRlist i j) :=
      pushAll_eq [] (gRlist i j) (by simpa [gRlist] using hN2)
    have p2 : AlgGen.pushAll [] [(i, j, (⟨0, 0.5⟩ : ℂ)), (j, i, ⟨0, 0.5⟩)] = some (gIlist i j) :=
      pushAll_eq [] (gIlist i j) (by simpa [gIlist] using hN2)
    simp only [genOffLoop, p1, p2, wr, h0, h1, if_true]
    obtain ⟨b', hb', hlow, hq⟩ := ih (k + 2) (Function.update (Function.update b k (some (gRlist i j))) (k + 1)
      (some (gIlist i j))) (by omega) (fun p hp => hlt p (by simp [hp]))
    refine ⟨b', hb', ?_, ?_⟩
    · intro l hl
      rw [hlow l (by omega), Function.update_of_ne (by omega), Function.update_of_ne (by omega)]
    · intro q h
      cases q with
      | zero =>
        simp only [Nat.mul_zero, Nat.add_zero, List.getElem_cons_zero]
        constructor
        · rw [hlow k (by omega), Function.update_of_ne (by omega), Function.update_self]
        · rw [hlow (k + 1) (by omega), Function.update_self]
      | succ q =>
        have := hq q (by simpa using h)
        simp only [List.getElem_cons_succ]
        rw [show k + 2 + 2 * q = k + 2 * (q + 1) from by ring] at this
        exact this

/-- The list of generators, with their elements. -/
theorem generatorList_run (hN : 0 < N) (old : Buf (AlgGen N)) :
    ∃ g, generatorList old = some g ∧
      (∀ l, gsum (g l) = genAt N l.val ∧ (g l).toMatrix = genAt N l.val) ∧
      ∀ l : Fin (N * N - 1), (h : l.val + 1 < N) → g l = gDlist ⟨l.val + 1, h⟩ := by
  obtain ⟨b, hb, h1, -⟩ := genDiagLoop_run 1 le_rfl old
  obtain ⟨b', hb', hlow, hq⟩ := genOffLoop_run (upperPairs N) (N - 1) b (le_of_eq (dim_alg hN))
    (fun p hp => mem_upperPairs.1 hp)
  have key : ∀ l : Fin (N * N - 1), ∃ g, b' l.val = some g ∧ (gsum g = genAt N l.val ∧ g.toMatrix = genAt N l.val) ∧
      ∀ h : l.val + 1 < N, g = gDlist ⟨l.val + 1, h⟩ := by
    intro l
    rcases gen_cases hN l.isLt with h | ⟨q, hq1, hl⟩ | ⟨q, hq1, hl⟩
    · refine ⟨gDlist ⟨l.val + 1, h⟩, by rw [hlow l.val (by omega), h1 l.val ⟨by omega, h⟩], ?_, fun _ => rfl⟩
      rw [toMatrix_eq _ (gDlist_nodup _), gDlist_gsum, genAt_diag h]
      exact ⟨rfl, rfl⟩
    · refine ⟨_, by rw [hl]; exact (hq q hq1).1, ?_, fun h => by omega⟩
      have hp := pair_lt hq1
      rw [toMatrix_eq _ (by simp only [gRlist, List.map_cons, List.map_nil, List.nodup_cons, List.mem_singleton, Prod.mk.injEq,
        hp.ne, false_and, not_false_eq_true, List.not_mem_nil, List.nodup_nil, and_self]), gRlist_gsum, hl, genAt_even hq1]
      exact ⟨rfl, rfl⟩
    · refine ⟨_, by rw [hl]; exact (hq q hq1).2, ?_, fun h => by omega⟩
      have hp := pair_lt hq1
      rw [toMatrix_eq _ (by simp only [gIlist, List.map_cons, List.map_nil, List.nodup_cons, List.mem_singleton, Prod.mk.injEq,
        hp.ne, false_and, not_false_eq_true, List.not_mem_nil, List.nodup_nil, and_self]), gIlist_gsum, hl, genAt_odd hq1]
      exact ⟨rfl, rfl⟩
  choose g hg hs hd using key
  refine ⟨g, ?_, hs, hd⟩
  unfold generatorList
  rw [hb]
  simp only [hb', collect]
  rw [if_pos (fun l => by rw [hg l]; rfl)]
  congr 1
  funext l
  rw [hg l]; rfl

/-! ### Sums over sparse matrices -/

theorem foldl_add_sum {α : Type} (f : α → ℝ) (l : List α) (t : ℝ) : l.foldl (fun t e => t + f e) t = t + (l.map f).sum := by
  induction l generalizing t with
  | nil => simp
  | cons e l ih => rw [List.foldl_cons, ih, List.map_cons, List.sum_cons, add_assoc]

theorem trace_gsum_mul (g : AlgGen N) (A : Mat N) :
    (gsum g * A).trace = (g.map fun e => e.2.2 * A e.2.1 e.1).sum := by
  unfold gsum
  induction g with
  | nil => simp
  | cons e g ih =>
    rw [List.map_cons, List.sum_cons, add_mul, Matrix.trace_add, ih, List.map_cons, List.sum_cons, Matrix.trace_single_mul]
    simp

theorem re_list_sum {α : Type} (f : α → ℂ) (l : List α) : (l.map f).sum.re = (l.map fun e => (f e).re).sum := by
  induction l with
  | nil => rfl
  | cons e l ih => rw [List.map_cons, List.sum_cons, Complex.add_re, ih, List.map_cons, List.sum_cons]

theorem bilinear2_eq (w1 w2 : Mat N) (g h : AlgGen N) : bilinear2 w1 w2 g h = -2 * (gsum g * w1 * gsum h * w2).trace.re := by
  unfold bilinear2
  congr 1
  have h1 : ∀ (e : Fin N × Fin N × ℂ) (t : ℝ), h.foldl (fun t f => t + (e.2.2 * w1 e.2.1 f.1 * f.2.2 * w2 f.2.1 e.1).re) t =
      t + (e.2.2 * (w1 * gsum h * w2) e.2.1 e.1).re := by
    intro e t
    rw [foldl_add_sum]
    congr 1
    have : (w1 * gsum h * w2) e.2.1 e.1 = (h.map fun f => w1 e.2.1 f.1 * f.2.2 * w2 f.2.1 e.1).sum := by
      unfold gsum
      induction h with
      | nil => simp
      | cons f h ih =>
        simp only [List.map_cons, List.sum_cons, mul_add, add_mul, Matrix.add_apply, ih]
        congr 1
        rw [Matrix.mul_apply, Finset.sum_eq_single f.2.1]
        · rw [Matrix.mul_apply, Finset.sum_eq_single f.1]
          · simp [Matrix.single_apply]
          · intro k _ hk; simp [Matrix.single_apply, Ne.symm hk]
          · simp
        · intro k _ hk
          rw [Matrix.mul_apply, Finset.sum_eq_zero, zero_mul]
          intro k' _; simp [Matrix.single_apply, Ne.symm hk]
        · simp
    rw [this, ← List.sum_map_mul_left, re_list_sum]
    congr 1
    apply List.map_congr_left
    intro f _
    congr 1; ring
  simp only [h1]
  rw [foldl_add_sum, zero_add, ← re_list_sum, ← trace_gsum_mul, ← mul_assoc, ← mul_assoc]

theorem bilinear1_eq (w : Mat N) (g : AlgGen N) : bilinear1 w g = -2 * (gsum g * w).trace.re := by
  unfold bilinear1
  rw [foldl_add_sum, zero_add, ← re_list_sum, ← trace_gsum_mul]

theorem bilinearW_eq (w : Fin N → Fin N → Mat N) (g h : AlgGen N) :
    bilinearW w g h = -2 * (∑ k, ∑ l, (gsum g * w k l).trace * gsum h k l).re := by
  unfold bilinearW
  congr 1
  have h1 : ∀ (e : Fin N × Fin N × ℂ) (t : ℝ), h.foldl (fun t f => t + (e.2.2 * w f.1 f.2.1 e.2.1 e.1 * f.2.2).re) t =
      t + (h.map fun f => (e.2.2 * w f.1 f.2.1 e.2.1 e.1 * f.2.2).re).sum := fun e t => foldl_add_sum _ _ _
  simp only [h1]
  rw [foldl_add_sum, zero_add]
  have h2 : ∀ F : Fin N → Fin N → ℂ, ∑ k, ∑ l, F k l * gsum h k l = (h.map fun f => F f.1 f.2.1 * f.2.2).sum := by
    intro F
    unfold gsum
    induction h with
    | nil => simp
    | cons f h ih =>
      rw [List.map_cons, List.sum_cons, List.map_cons, List.sum_cons, ← ih (by intro e t; exact foldl_add_sum _ _ _)]
      simp only [Matrix.add_apply, mul_add, Finset.sum_add_distrib]
      congr 1
      rw [Finset.sum_eq_single f.1, Finset.sum_eq_single f.2.1]
      · simp
      · intro l _ hl; simp [Matrix.single_apply, Ne.symm hl]
      · simp
      · intro k _ hk; apply Finset.sum_eq_zero; intro l _; simp [Matrix.single_apply, Ne.symm hk]
      · simp
  rw [h2 fun k l => (gsum g * w k l).trace]
  clear h1 h2
  induction h with
  | nil => simp
  | cons f h ih =>
    rw [List.map_cons, List.sum_cons, Complex.add_re, ← ih, trace_gsum_mul, ← List.sum_map_mul_right, re_list_sum]
    simp only [List.map_cons, List.sum_cons, List.sum_map_add]

theorem sparseMul_eq (g h : AlgGen N) : sparseMul g h = gsum g * gsum h := by
  unfold sparseMul
  have h1 : ∀ (e : Fin N × Fin N × ℂ) (h : AlgGen N) (m : Mat N), h.foldl (fun m f =>
      if e.2.1 = f.1 then m + Matrix.single e.1 f.2.1 (e.2.2 * f.2.2) else m) m =
      m + Matrix.single e.1 e.2.1 e.2.2 * gsum h := by
    intro e h
    induction h with
    | nil => intro m; simp [gsum]
    | cons f h ih =>
      intro m
      rw [List.foldl_cons, ih]
      unfold gsum
      rw [List.map_cons, List.sum_cons, mul_add, ← add_assoc]
      congr 1
      by_cases hef : e.2.1 = f.1
      · rw [if_pos hef, ← hef, Matrix.single_mul_single_same]
      · rw [if_neg hef, Matrix.single_mul_single_of_ne _ _ _ _ hef, add_zero]
  simp only [h1]
  have h2 : ∀ (g : AlgGen N) (m : Mat N), g.foldl (fun m e => m + Matrix.single e.1 e.2.1 e.2.2 * gsum h) m = m + gsum g * gsum h := by
    intro g
    induction g with
    | nil => intro m; simp [gsum]
    | cons e g ih =>
      intro m
      rw [List.foldl_cons, ih]
      conv_rhs => rw [gsum]
      rw [List.map_cons, List.sum_cons, add_mul, ← add_assoc]
      rfl
  rw [h2, zero_add]

theorem mem_nonzeros (m : Mat N) (e : Fin N × Fin N × ℂ) : e ∈ nonzeros m ↔ m e.1 e.2.1 ≠ 0 ∧ e.2.2 = m e.1 e.2.1 := by
  unfold nonzeros
  simp only [List.mem_flatMap, List.mem_finRange, List.mem_map, List.mem_filter, true_and, decide_eq_true_eq]
  constructor
  · rintro ⟨i, j, h, rfl⟩; exact ⟨h, rfl⟩
  · rintro ⟨h, h'⟩; exact ⟨e.1, e.2.1, h, by rw [← h']⟩

theorem nonzeros_nodup (m : Mat N) : ((nonzeros m).map fun e => (e.1, e.2.1)).Nodup := by
  classical
  unfold nonzeros
  rw [List.map_flatMap, List.nodup_flatMap]
  constructor
  · intro i _
    rw [List.map_map]
    exact ((List.nodup_finRange N).filter _).map (fun a b h => by simpa using h)
  · refine List.Pairwise.imp ?_ (List.nodup_finRange N)
    intro a b hab
    simp only [Function.onFun, List.disjoint_left, List.mem_map]
    rintro x ⟨e, ⟨j, _, rfl⟩, rfl⟩ ⟨e', ⟨j', _, rfl⟩, h⟩
    exact hab (by simpa using (congrArg Prod.fst h).symm)

theorem gsum_nonzeros (m : Mat N) : gsum (nonzeros m) = m := by
  classical
  ext a b
  unfold gsum
  rw [sum_list_apply, List.map_map]
  by_cases h : m a b = 0
  · rw [h]
    apply List.sum_eq_zero
    intro x hx
    rw [List.mem_map] at hx
    obtain ⟨e, he, rfl⟩ := hx
    have := (mem_nonzeros m e).1 he
    simp only [Function.comp, Matrix.single_apply]
    rw [if_neg]
    rintro ⟨h1, h2⟩
    rw [h1, h2] at this
    exact this.1 h
  · have hnd : (nonzeros m).Nodup := List.Nodup.of_map _ (nonzeros_nodup m)
    rw [← List.sum_toFinset _ hnd, Finset.sum_eq_single (a, b, m a b)]
    · simp
    · intro e he hne
      rw [List.mem_toFinset, mem_nonzeros] at he
      simp only [Function.comp, Matrix.single_apply]
      rw [if_neg]
      rintro ⟨h1, h2⟩
      apply hne
      rw [h1, h2] at he
      rw [← h1, ← h2, h1, h2, ← he.2]
      exact Prod.ext h1 (Prod.ext h2 rfl)
    · intro hn
      exact absurd (List.mem_toFinset.2 ((mem_nonzeros m (a, b, m a b)).2 ⟨h, rfl⟩)) hn

/-! ### Specification -/

/-- Generators of the algebra: antihermitian, traceless and orthonormal in `2 Re tr(A† B)`. -/
structure IsGenerators (lam : Fin (N * N - 1) → Mat N) : Prop where
  anti : ∀ l, (lam l).conjTranspose = -lam l
  traceless : ∀ l, (lam l).trace = 0
  orthonormal : ∀ k l, 2 * ((lam k).conjTranspose * lam l).trace.re = if k = l then 1 else 0

/-- C50. The table of generators is the same whatever was in the array, and its entries are generators. -/
theorem C50_generators (hN : 0 < N) :
    ∃ g : Fin (N * N - 1) → AlgGen N, (∀ old, generatorList old = some g) ∧ IsGenerators fun l => (g l).toMatrix := by
  obtain ⟨g, hg, hm, -⟩ := generatorList_run hN fun _ => none
  refine ⟨g, ?_, ⟨?_, ?_, ?_⟩⟩
  · intro old
    obtain ⟨b, hb, h1, -⟩ := genDiagLoop_run (N := N) 1 le_rfl old
    obtain ⟨b0, hb0, h10, -⟩ := genDiagLoop_run (N := N) 1 le_rfl fun _ => none
    obtain ⟨b', hb', hlow, hq⟩ := genOffLoop_run (upperPairs N) (N - 1) b (le_of_eq (dim_alg hN))
      (fun p hp => mem_upperPairs.1 hp)
    obtain ⟨b0', hb0', hlow0, hq0⟩ := genOffLoop_run (upperPairs N) (N - 1) b0 (le_of_eq (dim_alg hN))
      (fun p hp => mem_upperPairs.1 hp)
    have hsame : ∀ l : Fin (N * N - 1), b' l.val = b0' l.val := by
      intro l
      rcases gen_cases hN l.isLt with h | ⟨q, hq1, hl⟩ | ⟨q, hq1, hl⟩
      · rw [hlow l.val (by omega), hlow0 l.val (by omega), h1 l.val ⟨by omega, h⟩, h10 l.val ⟨by omega, h⟩]
      · rw [hl, (hq q hq1).1, (hq0 q hq1).1]
      · rw [hl, (hq q hq1).2, (hq0 q hq1).2]
    rw [← hg]
    unfold generatorList
    rw [hb, hb0]
    simp only [hb', hb0', collect, hsame]
  · intro l; rw [(hm l).2, genAt_conj]
  · intro l; rw [(hm l).2, genAt_trace hN l.isLt]
  · intro k l
    rw [(hm k).2, (hm l).2]
    have := coef_genAt hN k.isLt l.isLt
    unfold coef at this
    rw [this]
    simp only [Fin.ext_iff]

/-- Any table of generators the code computes holds the generators of the lemmas. -/
theorem gens_eq (hN : 0 < N) {old : Buf (AlgGen N)} {g : Fin (N * N - 1) → AlgGen N} (hg : generatorList old = some g)
    (l : Fin (N * N - 1)) : gsum (g l) = (g l).toMatrix ∧ genAt N l.val = (g l).toMatrix := by
  obtain ⟨g', hg', hm, -⟩ := generatorList_run hN old
  rw [hg] at hg'
  obtain rfl := Option.some.inj hg'
  exact ⟨by rw [(hm l).1, (hm l).2], ((hm l).2).symm⟩

/-- C50. `expand` and `expand_scaled` give the combination of the generators. -/
theorem C50_expand (hN : 0 < N) {old : Buf (AlgGen N)} {g : Fin (N * N - 1) → AlgGen N} (hg : generatorList old = some g)
    (a : Alg N) (s : ℝ) :
    expandRun a = some (∑ l, (a l : ℂ) • (g l).toMatrix) ∧
      expandScaledRun a s = some ((s : ℂ) • ∑ l, (a l : ℂ) • (g l).toMatrix) := by
  have e : algMat a = ∑ l, (a l : ℂ) • (g l).toMatrix := by
    unfold algMat
    apply Finset.sum_congr rfl
    intro l _
    rw [(gens_eq hN hg l).2]
  constructor
  · unfold expandRun
    rw [expandScaledRun_eq hN, e]
    simp
  · rw [expandScaledRun_eq hN, e]

/-- C50. `project_to_algebra` and `project_to_algebra_scaled` give the coordinates `2 Re tr(λ† A)`. -/
theorem C50_project (hN : 0 < N) {old : Buf (AlgGen N)} {g : Fin (N * N - 1) → AlgGen N} (hg : generatorList old = some g)
    (A : Mat N) (s : ℝ) :
    projectRun A = some (fun l => 2 * ((g l).toMatrix.conjTranspose * A).trace.re) ∧
      projectScaledRun A s = some (fun l => s * (2 * ((g l).toMatrix.conjTranspose * A).trace.re)) := by
  have key : ∀ s, projectScaledRun A s = some (fun l => s * (2 * ((g l).toMatrix.conjTranspose * A).trace.re)) := by
    intro s
    rw [projectScaledRun_eq hN]
    congr 1
    funext l
    rw [(gens_eq hN hg l).2]
    rfl
  refine ⟨?_, key s⟩
  unfold projectRun
  rw [key 1]
  simp

/-- C50. Coordinates of the matrix of coordinates; the matrix of the coordinates is the antihermitian traceless part. -/
theorem C50_roundtrip (hN : 0 < N) (a : Alg N) (A : Mat N) :
    ((expandRun a).bind projectRun = some a) ∧ ((projectRun A).bind expandRun = some (algPart A)) := by
  constructor
  · unfold expandRun projectRun
    rw [expandScaledRun_eq hN]
    simp only [Option.bind_some]
    rw [projectScaledRun_eq hN]
    congr 1
    funext l
    rw [Complex.ofReal_one, one_smul, one_mul]
    exact coef_algMat hN a l
  · unfold expandRun projectRun
    rw [projectScaledRun_eq hN]
    simp only [Option.bind_some]
    rw [expandScaledRun_eq hN, Complex.ofReal_one, one_smul, ← algMat_coef hN]
    simp only [one_mul]

theorem algPart_self (A : Mat N) (hA : A.conjTranspose = -A) (ht : A.trace = 0) : algPart A = A := by
  unfold algPart
  have : (1 / 2 : ℂ) • (A - A.conjTranspose) = A := by
    rw [hA, sub_neg_eq_add, ← two_smul ℂ A, smul_smul]; norm_num
  rw [this, ht, zero_div, zero_smul, sub_zero]

theorem coef_algPart_dot (hN : 0 < N) (a b : Alg N) : coef (algMat a) (algMat b) = ∑ l, a l * b l := by
  rw [coef_comm]
  conv_lhs => rw [show algMat a = ∑ l, (a l : ℂ) • genAt N l.val from rfl]
  rw [coef_sum]
  apply Finset.sum_congr rfl
  intro l _
  rw [coef_smul, coef_comm, coef_algMat hN]

/-- C50. `dot` is the trace of the product, and `squarenorm` is twice the squared norm of the matrix. -/
theorem C50_dot (hN : 0 < N) (a b : Alg N) {A B : Mat N} (ha : expandRun a = some A) (hb : expandRun b = some B) :
    a.dot b = (A.conjTranspose * B).trace.re ∧ a.squarenorm = 2 * (A.conjTranspose * A).trace.re := by
  unfold expandRun at ha hb
  rw [expandScaledRun_eq hN, Complex.ofReal_one, one_smul, Option.some.injEq] at ha hb
  have h1 := coef_algPart_dot hN a b
  have h2 := coef_algPart_dot hN a a
  unfold coef at h1 h2
  rw [← ha, ← hb]
  unfold Alg.dot Alg.squarenorm
  constructor
  · rw [← h1]; ring
  · rw [h2]; exact Finset.sum_congr rfl fun i _ => by ring

theorem conj_alg (hN : 0 < N) {U : Mat N} (hU : U ∈ Matrix.unitaryGroup (Fin N) ℂ) (E : Alg N) :
    expand (leftConj U E) = U * expand E * U.conjTranspose := by
  unfold leftConj
  rw [expand_project hN, expand_eq hN]
  apply algPart_self
  · rw [Matrix.conjTranspose_mul, Matrix.conjTranspose_mul, Matrix.conjTranspose_conjTranspose, algMat_conj, ← mul_assoc]
    simp
  · rw [Matrix.trace_mul_comm, ← mul_assoc]
    have : U.conjTranspose * U = 1 := Matrix.mem_unitaryGroup_iff'.1 hU
    rw [this, one_mul, algMat_trace hN]

/-- C50. Conjugation with a unitary matrix: the matrix of `left_conjugation` is `U E U†`, `right_conjugation` inverts it,
and the scalar product is kept. -/
theorem C50_conjugation (hN : 0 < N) {U : Mat N} (hU : U ∈ Matrix.unitaryGroup (Fin N) ℂ) (E F : Alg N) :
    expand (leftConj U E) = U * expand E * U.conjTranspose ∧ expand (rightConj U E) = U.conjTranspose * expand E * U ∧
      rightConj U (leftConj U E) = E ∧ leftConj U (rightConj U E) = E ∧ (leftConj U E).dot (leftConj U F) = E.dot F := by
  have hU' : U.conjTranspose ∈ Matrix.unitaryGroup (Fin N) ℂ := Unitary.star_mem hU
  have h1 : U.conjTranspose * U = 1 := Matrix.mem_unitaryGroup_iff'.1 hU
  have h2 : U * U.conjTranspose = 1 := Matrix.mem_unitaryGroup_iff.1 hU
  have hr : ∀ E, rightConj U E = leftConj U.conjTranspose E := by
    intro E; unfold rightConj leftConj; rw [Matrix.conjTranspose_conjTranspose]
  have hl := conj_alg hN hU
  have hrr : ∀ E, expand (rightConj U E) = U.conjTranspose * expand E * U := by
    intro E; rw [hr, conj_alg hN hU', Matrix.conjTranspose_conjTranspose]
  refine ⟨hl E, hrr E, ?_, ?_, ?_⟩
  · unfold rightConj
    rw [hl, show U.conjTranspose * (U * expand E * U.conjTranspose) * U = (U.conjTranspose * U) * expand E * (U.conjTranspose * U)
      from by simp only [mul_assoc], h1, one_mul, mul_one, project_expand hN]
  · unfold leftConj
    rw [hrr, show U * (U.conjTranspose * expand E * U) * U.conjTranspose = (U * U.conjTranspose) * expand E * (U * U.conjTranspose)
      from by simp only [mul_assoc], h2, one_mul, mul_one, project_expand hN]
  · have hd : ∀ E F : Alg N, E.dot F = ((expand E).conjTranspose * expand F).trace.re := by
      intro E F
      apply (C50_dot hN E F (A := expand E) (B := expand F) ?_ ?_).1 <;>
      · unfold expand expandRun; rw [expandScaledRun_eq hN]; rfl
    rw [hd, hd, hl, hl, Matrix.conjTranspose_mul, Matrix.conjTranspose_mul, Matrix.conjTranspose_conjTranspose,
      show U * ((expand E).conjTranspose * U.conjTranspose) * (U * expand F * U.conjTranspose) =
        U * ((expand E).conjTranspose * (U.conjTranspose * U) * expand F * U.conjTranspose) from by simp only [mul_assoc],
      h1, mul_one, Matrix.trace_mul_comm, mul_assoc, mul_assoc, h1, mul_one]

/-! ### Products of generators -/

/-- At most one nonzero element in a row. -/
def RowMono (m : Mat N) : Prop := ∀ a b b', m a b ≠ 0 → m a b' ≠ 0 → b = b'

theorem RowMono.mul {A B : Mat N} (hA : RowMono A) (hB : RowMono B) : RowMono (A * B) := by
  intro a b b' h h'
  rw [Matrix.mul_apply] at h h'
  obtain ⟨k, -, hk⟩ := Finset.exists_ne_zero_of_sum_ne_zero h
  obtain ⟨k', -, hk'⟩ := Finset.exists_ne_zero_of_sum_ne_zero h'
  have := hA a k k' (left_ne_zero_of_mul hk) (left_ne_zero_of_mul hk')
  subst this
  exact hB k b b' (right_ne_zero_of_mul hk) (right_ne_zero_of_mul hk')

theorem genAt_rowMono (hN : 0 < N) {l : ℕ} (hl : l < N * N - 1) : RowMono (genAt N l) := by
  intro a b b' h h'
  rcases gen_cases hN hl with hd | ⟨q, hq, rfl⟩ | ⟨q, hq, rfl⟩
  · rw [genAt_diag hd] at h h'
    have e : ∀ c, genD (⟨l + 1, hd⟩ : Fin N) a c ≠ 0 → a = c := by
      intro c hc; by_contra hn; exact hc (genD_off _ _ _ hn)
    rw [← e b h, ← e b' h']
  · rw [genAt_even hq] at h h'
    have hp := pair_lt hq
    have e : ∀ c, genR (upperPairs N)[q].1 (upperPairs N)[q].2 a c ≠ 0 →
        ((upperPairs N)[q].1 = a ∧ (upperPairs N)[q].2 = c) ∨ ((upperPairs N)[q].2 = a ∧ (upperPairs N)[q].1 = c) := by
      intro c hc
      unfold genR at hc
      rw [Matrix.sub_apply, Matrix.single_apply, Matrix.single_apply] at hc
      by_contra hn
      rw [not_or] at hn
      rw [if_neg hn.1, if_neg hn.2, sub_zero] at hc
      exact hc rfl
    rcases e b h with ⟨h1, h2⟩ | ⟨h1, h2⟩ <;> rcases e b' h' with ⟨h3, h4⟩ | ⟨h3, h4⟩
    · rw [← h2, ← h4]
    · exact absurd (h1.trans h3.symm) hp.ne
    · exact absurd (h3.trans h1.symm) hp.ne
    · rw [← h2, ← h4]
  · rw [genAt_odd hq] at h h'
    have hp := pair_lt hq
    have e : ∀ c, genI (upperPairs N)[q].1 (upperPairs N)[q].2 a c ≠ 0 →
        ((upperPairs N)[q].1 = a ∧ (upperPairs N)[q].2 = c) ∨ ((upperPairs N)[q].2 = a ∧ (upperPairs N)[q].1 = c) := by
      intro c hc
      unfold genI at hc
      rw [Matrix.add_apply, Matrix.single_apply, Matrix.single_apply] at hc
      by_contra hn
      rw [not_or] at hn
      rw [if_neg hn.1, if_neg hn.2, add_zero] at hc
      exact hc rfl
    rcases e b h with ⟨h1, h2⟩ | ⟨h1, h2⟩ <;> rcases e b' h' with ⟨h3, h4⟩ | ⟨h3, h4⟩
    · rw [← h2, ← h4]
    · exact absurd (h1.trans h3.symm) hp.ne
    · exact absurd (h3.trans h1.symm) hp.ne
    · rw [← h2, ← h4]

theorem nonzeros_length {m : Mat N} (hm : RowMono m) : (nonzeros m).length ≤ N := by
  have h := nonzeros_nodup m
  have h1 : ((nonzeros m).map fun e => e.1).Nodup := by
    rw [List.nodup_map_iff_inj_on (List.Nodup.of_map _ h)]
    intro e he f hf hef
    have he' := (mem_nonzeros m e).1 he
    have hf' := (mem_nonzeros m f).1 hf
    have h12 : e.2.1 = f.2.1 := hm e.1 e.2.1 f.2.1 he'.1 (by rw [hef]; exact hf'.1)
    refine Prod.ext hef (Prod.ext h12 ?_)
    rw [he'.2, hf'.2, hef, h12]
  have := h1.length_le_card
  rw [List.length_map, Fintype.card_fin] at this
  exact this

/-- C50. Table of the products: in an array of empty lists every product is stored. The full statement, that this holds
whatever was in the array, fails by `C50_products_again`. -/
theorem C50_products_partial (hN : 0 < N) {old : Buf (AlgGen N)} {g : Fin (N * N - 1) → AlgGen N}
    (hg : generatorList old = some g) (k l : Fin (N * N - 1)) :
    ∃ p, generatorProduct (g k) (g l) [] = some p ∧ gsum p = (g k).toMatrix * (g l).toMatrix ∧
      p.toMatrix = (g k).toMatrix * (g l).toMatrix := by
  have hp : sparseMul (g k) (g l) = (g k).toMatrix * (g l).toMatrix := by
    rw [sparseMul_eq, (gens_eq hN hg k).1, (gens_eq hN hg l).1]
  have hm : RowMono ((g k).toMatrix * (g l).toMatrix) := by
    rw [← (gens_eq hN hg k).2, ← (gens_eq hN hg l).2]
    exact (genAt_rowMono hN k.isLt).mul (genAt_rowMono hN l.isLt)
  refine ⟨nonzeros (sparseMul (g k) (g l)), ?_, ?_, ?_⟩
  · unfold generatorProduct
    rw [pushAll_eq _ _ (by rw [hp]; simpa using nonzeros_length hm)]
    simp
  · rw [gsum_nonzeros, hp]
  · rw [toMatrix_eq _ (nonzeros_nodup _), gsum_nonzeros, hp]

/-- C50 fails: the lists are not emptied. For every `N ≥ 2` there is a generator whose square is written outside the
array when the table is computed a second time. -/
theorem C50_products_again (hN : 2 ≤ N) {old : Buf (AlgGen N)} {g : Fin (N * N - 1) → AlgGen N}
    (hg : generatorList old = some g) :
    ∃ l p, generatorProduct (g l) (g l) [] = some p ∧ generatorProduct (g l) (g l) p = none := by
  have hl : N - 2 < N * N - 1 := by
    have : N ≤ N * N := Nat.le_mul_self N
    omega
  obtain ⟨p, hp, -, -⟩ := C50_products_partial (by omega) hg ⟨N - 2, hl⟩ ⟨N - 2, hl⟩
  refine ⟨⟨N - 2, hl⟩, p, hp, ?_⟩
  have hpn : p = nonzeros (sparseMul (g ⟨N - 2, hl⟩) (g ⟨N - 2, hl⟩)) ∧ p.length ≤ N := by
    have hlen : (nonzeros (sparseMul (g ⟨N - 2, hl⟩) (g ⟨N - 2, hl⟩))).length ≤ N := by
      apply nonzeros_length
      rw [sparseMul_eq, (gens_eq (by omega) hg ⟨N - 2, hl⟩).1, ← (gens_eq (by omega) hg ⟨N - 2, hl⟩).2]
      exact (genAt_rowMono (by omega) hl).mul (genAt_rowMono (by omega) hl)
    unfold generatorProduct at hp
    rw [pushAll_eq _ _ (by simpa using hlen)] at hp
    simp only [List.nil_append, Option.some.injEq] at hp
    rw [← hp]
    exact ⟨rfl, hlen⟩
  -- every diagonal element of the square is nonzero
  have hfull : N ≤ p.length := by
    have hd : N - 2 + 1 < N := by omega
    have hsq : sparseMul (g ⟨N - 2, hl⟩) (g ⟨N - 2, hl⟩) = genD (⟨N - 2 + 1, hd⟩ : Fin N) * genD ⟨N - 2 + 1, hd⟩ := by
      rw [sparseMul_eq, (gens_eq (by omega) hg ⟨N - 2, hl⟩).1, ← (gens_eq (by omega) hg ⟨N - 2, hl⟩).2, genAt_diag hd]
    have hgn : genNorm (N - 2 + 1) ≠ 0 := by
      intro h0
      have := genNorm_mul (i := N - 2 + 1) (by omega)
      rw [h0] at this
      simp at this
    have hne : ∀ a : Fin N, genD (⟨N - 2 + 1, hd⟩ : Fin N) a a ≠ 0 := by
      intro a
      unfold genD
      rw [Matrix.diagonal_apply_eq]
      intro h0
      have him := congrArg Complex.im h0
      split_ifs at him with h1 h2
      · exact hgn him
      · simp only [Complex.zero_im, mul_eq_zero, neg_eq_zero] at him
        rcases him with h3 | h3
        · exact absurd h3 (Nat.cast_ne_zero.2 (by omega))
        · exact hgn h3
      · exfalso
        apply h2
        apply Fin.ext
        have h3 : ¬ a.val < N - 2 + 1 := fun h => h1 h
        have := a.isLt
        simp only
        omega
    have hsub : ∀ a : Fin N, (a, a, (genD (⟨N - 2 + 1, hd⟩ : Fin N) * genD ⟨N - 2 + 1, hd⟩) a a) ∈ p := by
      intro a
      rw [hpn.1, hsq, mem_nonzeros]
      refine ⟨?_, rfl⟩
      simp only
      rw [Matrix.mul_apply, Finset.sum_eq_single a]
      · exact mul_ne_zero (hne a) (hne a)
      · intro b _ hb; rw [genD_off _ _ _ hb.symm, zero_mul]
      · simp
    have hnd : (((List.finRange N).map fun a => (a, a, (genD (⟨N - 2 + 1, hd⟩ : Fin N) * genD ⟨N - 2 + 1, hd⟩) a a))).Nodup :=
      (List.nodup_finRange N).map fun a b h => (Prod.mk.inj h).1
    have := (List.subperm_of_subset hnd (l₂ := p) (by
      intro x hx
      rw [List.mem_map] at hx
      obtain ⟨a, -, rfl⟩ := hx
      exact hsub a)).length_le
    simpa using this
  unfold generatorProduct
  rw [← hpn.1]
  exact pushAll_full _ _ (by omega) hpn.2

/-! ### Bilinear projections -/

/-- C50. Bilinear projections with two matrices and with one. -/
theorem C50_bilinear (hN : 0 < N) {old : Buf (AlgGen N)} {g : Fin (N * N - 1) → AlgGen N} (hg : generatorList old = some g)
    (w1 w2 : Mat N) (i j : Fin (N * N - 1)) :
    bilinear2 w1 w2 (g i) (g j) = 2 * ((g i).toMatrix.conjTranspose * w1 * (g j).toMatrix * w2).trace.re ∧
      ∃ p, generatorProduct (g j) (g i) [] = some p ∧
        bilinear1 w1 p = 2 * ((g i).toMatrix.conjTranspose * w1 * (g j).toMatrix).trace.re := by
  have hanti : (g i).toMatrix.conjTranspose = -(g i).toMatrix := by
    rw [← (gens_eq hN hg i).2, genAt_conj]
  constructor
  · rw [bilinear2_eq, (gens_eq hN hg i).1, (gens_eq hN hg j).1, hanti]
    simp only [neg_mul, Matrix.trace_neg, Complex.neg_re]
    ring
  · obtain ⟨p, hp, hs, -⟩ := C50_products_partial hN hg j i
    refine ⟨p, hp, ?_⟩
    rw [bilinear1_eq, hs, hanti, mul_assoc, Matrix.trace_mul_comm]
    simp only [neg_mul, Matrix.trace_neg, Complex.neg_re]
    ring

/-- C50. Bilinear projection of an array of matrices, as it is computed: element `[k][l]` goes with `λ_j[k][l]`. The comment
of the code has `λ_j[l][k]`, see `C50_bilinear_array_transposed`. -/
theorem C50_bilinear_array_partial (hN : 0 < N) {old : Buf (AlgGen N)} {g : Fin (N * N - 1) → AlgGen N}
    (hg : generatorList old = some g) (w : Fin N → Fin N → Mat N) (i j : Fin (N * N - 1)) :
    bilinearW w (g i) (g j) =
      ∑ k, ∑ l, 2 * (((g i).toMatrix.conjTranspose * w k l).trace * (g j).toMatrix k l).re := by
  have hanti : (g i).toMatrix.conjTranspose = -(g i).toMatrix := by
    rw [← (gens_eq hN hg i).2, genAt_conj]
  rw [bilinearW_eq, (gens_eq hN hg i).1, (gens_eq hN hg j).1, hanti, Complex.re_sum, Finset.mul_sum]
  apply Finset.sum_congr rfl
  intro k _
  rw [Complex.re_sum, Finset.mul_sum]
  apply Finset.sum_congr rfl
  intro l _
  simp only [neg_mul, Matrix.trace_neg, Complex.neg_re]
  ring

/-- C50 fails: the documented formula with `λ_j[l][k]` is not what is computed, for any `N ≥ 2`. -/
theorem C50_bilinear_array_transposed (hN : 2 ≤ N) {old : Buf (AlgGen N)} {g : Fin (N * N - 1) → AlgGen N}
    (hg : generatorList old = some g) :
    ∃ w i j, bilinearW w (g i) (g j) ≠
      ∑ k, ∑ l, 2 * (((g i).toMatrix.conjTranspose * w k l).trace * (g j).toMatrix l k).re := by
  have hN0 : 0 < N := by omega
  have hlen : 0 < (upperPairs N).length :=
    List.length_pos_of_mem (mem_upperPairs.2 (show ((⟨0, by omega⟩, ⟨1, by omega⟩) : Fin N × Fin N).1 < _ from by
      rw [Fin.lt_def]; norm_num))
  have hl : N - 1 + 2 * 0 < N * N - 1 := by have := dim_alg hN0; omega
  obtain ⟨a, ha⟩ : ∃ a, a = (upperPairs N)[0].1 := ⟨_, rfl⟩
  obtain ⟨b, hb⟩ : ∃ b, b = (upperPairs N)[0].2 := ⟨_, rfl⟩
  have hab : a < b := by rw [ha, hb]; exact pair_lt hlen
  have hgen : (g ⟨N - 1 + 2 * 0, hl⟩).toMatrix = genR a b := by
    rw [← (gens_eq hN0 hg ⟨N - 1 + 2 * 0, hl⟩).2, ha, hb]
    exact genAt_even hlen
  refine ⟨fun k l => if k = a ∧ l = b then genR a b else 0, ⟨N - 1 + 2 * 0, hl⟩, ⟨N - 1 + 2 * 0, hl⟩, ?_⟩
  rw [C50_bilinear_array_partial hN0 hg, hgen]
  have red : ∀ F : Fin N → Fin N → ℂ, (∑ k, ∑ l, 2 * ((((genR a b).conjTranspose *
      (if k = a ∧ l = b then genR a b else 0 : Mat N)).trace * F k l).re)) = ((F a b).re) := by
    intro F
    have hc : 2 * ((genR a b).conjTranspose * genR a b).trace.re = 1 := by
      have := coef_genAt hN0 hl hl
      rw [if_pos rfl] at this
      unfold coef at this
      rw [show genAt N (N - 1 + 2 * 0) = genR a b from by rw [ha, hb]; exact genAt_even hlen] at this
      exact this
    have hi : ((genR a b).conjTranspose * genR a b).trace.im = 0 := by
      have : star ((genR a b).conjTranspose * genR a b).trace = ((genR a b).conjTranspose * genR a b).trace := by
        rw [← Matrix.trace_conjTranspose, Matrix.conjTranspose_mul, Matrix.conjTranspose_conjTranspose]
      exact Complex.conj_eq_iff_im.1 this
    rw [Finset.sum_eq_single a, Finset.sum_eq_single b]
    · rw [if_pos ⟨rfl, rfl⟩, Complex.mul_re, hi]
      linear_combination (F a b).re * hc
    · intro l _ hl'; rw [if_neg (fun h => hl' h.2)]; simp
    · simp
    · intro k _ hk; apply Finset.sum_eq_zero; intro l _; rw [if_neg (fun h => hk h.1)]; simp
    · simp
  rw [red (fun k l => genR a b k l), red (fun k l => genR a b l k)]
  simp only [genR, Matrix.sub_apply, Matrix.single_apply, hab.ne, hab.ne', and_self, if_true, if_false]
  norm_num

/-! ### Concrete cases -/

/-- The coordinates of `i σ_3 / 2` are `(1, 0, 0)` for `N = 2`. -/
example : ∃ g, generatorList (N := 2) (fun _ => none) = some g ∧
    expandRun (fun l => if l = 0 then 1 else 0 : Alg 2) = some (g 0).toMatrix := by
  obtain ⟨g, hg, -⟩ := C50_generators (N := 2) (by norm_num)
  refine ⟨g, hg _, ?_⟩
  rw [(C50_expand (by norm_num) (hg fun _ => none) _ 1).1, Finset.sum_eq_single 0]
  · simp
  · intro l _ hl; simp [hl]
  · simp

example : (!![0, 1; -1, 0] : Mat 2) ∈ Matrix.unitaryGroup (Fin 2) ℂ := by
  rw [Matrix.mem_unitaryGroup_iff]
  ext i j
  fin_cases i <;> fin_cases j <;> simp [Matrix.mul_apply, Matrix.star_apply]

end Hila
