import Verif.Model.LinkUpdate
import Verif.Props.SU2
import Mathlib.LinearAlgebra.Matrix.SchurComplement
import Mathlib.Analysis.SpecialFunctions.Complex.Log

/-!
# C29, C48, C49: updates of single links

SU(N) is Mathlib's `specialUnitaryGroup`, the action is the real part of the trace of `U S†`.
-/

namespace Hila

open Matrix Complex

variable {N : ℕ}

/-! ### 2×2 matrices in N×N matrices -/

/-- Selection of the rows `p` and `q`. -/
def sel (p q : Fin N) : Fin 2 → Fin N := ![p, q]

/-- The N×2 matrix of the selection. -/
def selMatrix (p q : Fin N) : Matrix (Fin N) (Fin 2) ℂ := fun r k => if r = sel p q k then 1 else 0

/-- The N×N matrix that acts as `M` on components `p` and `q` and trivially on the others. -/
def embed (p q : Fin N) (M : Matrix (Fin 2) (Fin 2) ℂ) : Matrix (Fin N) (Fin N) ℂ :=
  1 + selMatrix p q * ((M - 1) * (selMatrix p q)ᵀ)

theorem sel_transpose_mul (p q : Fin N) {m : Type} [Fintype m] (A : Matrix (Fin N) m ℂ) :
    (selMatrix p q)ᵀ * A = A.submatrix (sel p q) id := by
  ext k i
  simp [Matrix.mul_apply, selMatrix]

theorem sel_transpose_sel (p q : Fin N) (hpq : p ≠ q) : (selMatrix p q)ᵀ * selMatrix p q = 1 := by
  rw [sel_transpose_mul]
  ext i j
  fin_cases i <;> fin_cases j <;> simp [selMatrix, sel, hpq, hpq.symm]

theorem embed_mul (p q : Fin N) (hpq : p ≠ q) (M M' : Matrix (Fin 2) (Fin 2) ℂ) :
    embed p q M * embed p q M' = embed p q (M * M') := by
  unfold embed
  have key : selMatrix p q * ((M - 1) * (selMatrix p q)ᵀ) * (selMatrix p q * ((M' - 1) * (selMatrix p q)ᵀ)) =
      selMatrix p q * (((M - 1) * (M' - 1)) * (selMatrix p q)ᵀ) := by
    calc _ = selMatrix p q * (M - 1) * ((selMatrix p q)ᵀ * selMatrix p q) * ((M' - 1) * (selMatrix p q)ᵀ) := by
          simp only [Matrix.mul_assoc]
      _ = _ := by rw [sel_transpose_sel p q hpq, Matrix.mul_one]; simp only [Matrix.mul_assoc]
  rw [Matrix.add_mul, Matrix.mul_add, Matrix.mul_add, key, Matrix.one_mul, Matrix.one_mul, Matrix.mul_one]
  have e : M * M' - 1 = (M' - 1) + ((M - 1) + (M - 1) * (M' - 1)) := by
    rw [Matrix.sub_mul, Matrix.mul_sub, Matrix.mul_sub, Matrix.one_mul, Matrix.mul_one, Matrix.mul_one]
    abel
  rw [e, Matrix.add_mul, Matrix.add_mul, Matrix.mul_add, Matrix.mul_add]
  abel

theorem embed_one (p q : Fin N) : embed p q 1 = 1 := by
  unfold embed
  simp

theorem embed_conjTranspose (p q : Fin N) (M : Matrix (Fin 2) (Fin 2) ℂ) : (embed p q M)ᴴ = embed p q Mᴴ := by
  unfold embed
  have hP : (selMatrix p q)ᴴ = (selMatrix p q)ᵀ := by
    ext i j
    simp only [Matrix.conjTranspose_apply, Matrix.transpose_apply, selMatrix]
    split <;> simp
  have hPt : ((selMatrix p q)ᵀ)ᴴ = selMatrix p q := by
    rw [← hP, Matrix.conjTranspose_conjTranspose]
  rw [Matrix.conjTranspose_add, Matrix.conjTranspose_mul, Matrix.conjTranspose_mul, hP, hPt,
    Matrix.conjTranspose_sub, Matrix.conjTranspose_one, Matrix.conjTranspose_one]
  simp only [Matrix.mul_assoc]

theorem embed_det (p q : Fin N) (hpq : p ≠ q) (M : Matrix (Fin 2) (Fin 2) ℂ) : (embed p q M).det = M.det := by
  unfold embed
  rw [Matrix.det_one_add_mul_comm, Matrix.mul_assoc, sel_transpose_sel p q hpq, Matrix.mul_one]
  congr 1
  abel

theorem embed_mem (p q : Fin N) (hpq : p ≠ q) (M : Matrix (Fin 2) (Fin 2) ℂ)
    (hM : M ∈ specialUnitaryGroup (Fin 2) ℂ) : embed p q M ∈ specialUnitaryGroup (Fin N) ℂ := by
  obtain ⟨h1, h2⟩ := mem_specialUnitaryGroup_iff.1 hM
  refine mem_specialUnitaryGroup_iff.2 ⟨?_, by rw [embed_det p q hpq, h2]⟩
  rw [mem_unitaryGroup_iff, star_eq_conjTranspose, embed_conjTranspose, embed_mul p q hpq]
  rw [mem_unitaryGroup_iff, star_eq_conjTranspose] at h1
  rw [h1, embed_one]

/-- `mult_by_2x2_left` is the product with the embedded matrix. -/
theorem multBy2x2Left_eq (A : Matrix (Fin N) (Fin N) ℂ) (p q : Fin N) (hpq : p ≠ q) (M : Matrix (Fin 2) (Fin 2) ℂ) :
    multBy2x2Left A p q M = embed p q M * A := by
  unfold embed
  rw [Matrix.add_mul, Matrix.one_mul, Matrix.mul_assoc, Matrix.mul_assoc, sel_transpose_mul]
  ext r i
  unfold multBy2x2Left
  simp only [Matrix.add_apply, Matrix.mul_apply, Fin.sum_univ_two, selMatrix, sel, Matrix.submatrix_apply, id_eq,
    Matrix.sub_apply, Matrix.cons_val_zero, Matrix.cons_val_one, Matrix.one_apply]
  by_cases h1 : r = q
  · subst h1
    simp [hpq.symm]
    ring
  · by_cases h2 : r = p
    · subst h2
      simp [hpq]
      ring
    · simp [h1, h2]

theorem embed_trace (A : Matrix (Fin N) (Fin N) ℂ) (p q : Fin N) (M : Matrix (Fin 2) (Fin 2) ℂ) :
    (embed p q M * A).trace = A.trace + (M * !![A p p, A p q; A q p, A q q]).trace -
      (!![A p p, A p q; A q p, A q q] : Matrix (Fin 2) (Fin 2) ℂ).trace := by
  unfold embed
  rw [Matrix.add_mul, Matrix.one_mul, Matrix.trace_add, Matrix.mul_assoc, Matrix.mul_assoc, sel_transpose_mul,
    Matrix.trace_mul_comm, Matrix.mul_assoc]
  have : A.submatrix (sel p q) id * selMatrix p q = !![A p p, A p q; A q p, A q q] := by
    ext i j
    simp only [Matrix.mul_apply, Matrix.submatrix_apply, selMatrix, mul_ite, mul_one, mul_zero, Finset.sum_ite_eq',
      Finset.mem_univ, if_true, id_eq]
    fin_cases i <;> fin_cases j <;> simp [sel]
  rw [this, Matrix.sub_mul, Matrix.one_mul, Matrix.trace_sub]
  ring

/-! ### Overrelaxation -/

/-- The element of SU(2) of an overrelaxation hit: the square of the conjugate. -/
theorem overrelax_element (a : SU2) :
    (⟨a.a * (-2 * a.d), a.b * (-2 * a.d), a.c * (-2 * a.d), a.d * a.d - a.a * a.a - a.b * a.b - a.c * a.c⟩ : SU2) =
      a.dagger.mul a.dagger := by
  unfold SU2.dagger SU2.mul
  ext <;> simp <;> ring

theorem det_dagger (a : SU2) : a.dagger.det = a.det := by
  unfold SU2.dagger SU2.det
  simp

/-- Description of a hit. -/
theorem overrelaxHit_eq (s s' : Matrix (Fin N) (Fin N) ℂ × Matrix (Fin N) (Fin N) ℂ) (pq : Fin N × Fin N)
    (hpq : pq.1 ≠ pq.2) (h : overrelaxHit s pq = some s') :
    ∃ (a : SU2) (len : ℝ), 0 < len ∧ a.det = 1 ∧ SU2.projectFromMatrix s.2 pq.1 pq.2 = a.scale len ∧
      s'.1 = embed pq.1 pq.2 (a.dagger.mul a.dagger).toMatrix * s.1 ∧
      s'.2 = embed pq.1 pq.2 (a.dagger.mul a.dagger).toMatrix * s.2 := by
  unfold overrelaxHit at h
  obtain ⟨hz, hn⟩ := C28_normalize (SU2.projectFromMatrix s.2 pq.1 pq.2)
  by_cases h0 : SU2.projectFromMatrix s.2 pq.1 pq.2 = SU2.ofScalar 0
  · rw [hz h0] at h; cases h
  · obtain ⟨a, ha, hdet, hlen, hx⟩ := hn h0
    rw [ha] at h
    dsimp only at h
    rw [overrelax_element] at h
    obtain rfl := (Option.some.inj h).symm
    refine ⟨a, _, hlen, hdet, hx, ?_, ?_⟩
    · exact multBy2x2Left_eq _ _ _ hpq _
    · exact multBy2x2Left_eq _ _ _ hpq _

theorem mulTrace_scale (x y : SU2) (r : ℝ) : x.mulTrace (y.scale r) = x.mulTrace y * r := by
  unfold SU2.mulTrace SU2.scale; ring

theorem hit_trace (A : Matrix (Fin N) (Fin N) ℂ) (p q : Fin N) (a : SU2) (len : ℝ) (ha : a.det = 1)
    (hp : SU2.projectFromMatrix A p q = a.scale len) :
    (embed p q (a.dagger.mul a.dagger).toMatrix * A).trace.re = A.trace.re := by
  rw [embed_trace, Complex.sub_re, Complex.add_re, (C28_projection _ A p q).2, hp]
  have h1 : (!![A p p, A p q; A q p, A q q] : Matrix (Fin 2) (Fin 2) ℂ).trace.re =
      (SU2.ofScalar 1).mulTrace (a.scale len) := by
    have := (C28_projection (SU2.ofScalar 1) A p q).2
    rw [toMatrix_one, Matrix.one_mul, hp] at this
    exact this
  rw [h1, mulTrace_scale, mulTrace_scale]
  have : (a.dagger.mul a.dagger).mulTrace a = (SU2.ofScalar 1).mulTrace a := by
    unfold SU2.det at ha
    unfold SU2.mulTrace SU2.mul SU2.dagger SU2.ofScalar
    dsimp only
    linear_combination 2 * a.d * ha
  rw [this]
  ring

theorem subgroups_ne (pq : Fin N × Fin N) (h : pq ∈ subgroups N) : pq.1 ≠ pq.2 := by
  unfold subgroups at h
  simp only [List.mem_flatMap, List.mem_map, List.mem_filter, decide_eq_true_eq] at h
  obtain ⟨a, _, b, ⟨_, hab⟩, rfl⟩ := h
  exact hab.ne

/-- Every pair of rows is used exactly once. -/
theorem subgroups_spec (N : ℕ) : (subgroups N).Nodup ∧ ∀ p q : Fin N, (p, q) ∈ subgroups N ↔ p < q := by
  constructor
  · unfold subgroups
    rw [List.nodup_flatMap]
    constructor
    · intro a _
      exact ((List.nodup_finRange N).filter _).map (fun x y h => (Prod.mk.inj h).2)
    · refine (List.nodup_finRange N).imp ?_
      intro a b hab x hx hy
      simp only [List.mem_map] at hx hy
      obtain ⟨_, _, rfl⟩ := hx
      obtain ⟨_, _, h⟩ := hy
      exact hab (Prod.mk.inj h).1.symm
  · intro p q
    unfold subgroups
    simp only [List.mem_flatMap, List.mem_map, List.mem_filter, decide_eq_true_eq, List.mem_finRange, true_and]
    constructor
    · rintro ⟨a, b, hab, h⟩
      obtain ⟨rfl, rfl⟩ := Prod.mk.inj h
      exact hab
    · intro h
      exact ⟨p, q, h, rfl⟩

theorem foldlM_some_inv {α β : Type} (P : α → Prop) (f : α → β → Option α) (l : List β) (a a' : α) (h0 : P a)
    (hstep : ∀ a b a', b ∈ l → P a → f a b = some a' → P a') (h : l.foldlM f a = some a') : P a' := by
  induction l generalizing a with
  | nil =>
    simp only [List.foldlM_nil] at h
    obtain rfl := (Option.some.inj h)
    exact h0
  | cons b l ih =>
    rw [List.foldlM_cons] at h
    cases hb : f a b with
    | none => rw [hb] at h; cases h
    | some c =>
      rw [hb] at h
      exact ih c (hstep a b c List.mem_cons_self h0 hb) (fun a b' a' hb' => hstep a b' a' (List.mem_cons_of_mem _ hb')) h

/-- **C29 (overrelaxation).** For every N, link in SU(N) and staple: if the update is defined, the new link
is in SU(N) and the action is unchanged. Missing (`_partial`): staples with a vanishing SU(2) projection, see
`C29_zero_staple_undefined`. -/
theorem C29_overrelax_partial (U U' staple : Matrix (Fin N) (Fin N) ℂ) (hU : U ∈ specialUnitaryGroup (Fin N) ℂ)
    (h : suNOverrelax U staple = some U') :
    U' ∈ specialUnitaryGroup (Fin N) ℂ ∧ (U' * stapleᴴ).trace.re = (U * stapleᴴ).trace.re := by
  unfold suNOverrelax at h
  obtain ⟨s, hs, rfl⟩ := Option.map_eq_some_iff.1 h
  have := foldlM_some_inv
    (fun s : Matrix (Fin N) (Fin N) ℂ × Matrix (Fin N) (Fin N) ℂ => s.1 ∈ specialUnitaryGroup (Fin N) ℂ ∧
      s.2 = s.1 * stapleᴴ ∧ s.2.trace.re = (U * stapleᴴ).trace.re)
    overrelaxHit (subgroups N) (U, U * stapleᴴ) s ⟨hU, rfl, rfl⟩ ?_ hs
  · obtain ⟨h1, h2, h3⟩ := this
    exact ⟨h1, by rw [← h2, h3]⟩
  · rintro s pq s' hpq ⟨h1, h2, h3⟩ hstep
    obtain ⟨a, len, _, hdet, hproj, e1, e2⟩ := overrelaxHit_eq s s' pq (subgroups_ne pq hpq) hstep
    refine ⟨?_, ?_, ?_⟩
    · rw [e1]
      refine mul_mem (embed_mem _ _ (subgroups_ne pq hpq) _ ?_) h1
      rw [C28_group.1, det_mul, det_dagger, hdet, one_mul]
    · rw [e1, e2, h2, Matrix.mul_assoc]
    · rw [e2, hit_trace s.2 _ _ a len hdet hproj, h3]

/-- **C29 (reversibility).** Each hit is its own inverse: done twice with the same rows it restores link and
action. -/
theorem C29_hit_involution (s s' s'' : Matrix (Fin N) (Fin N) ℂ × Matrix (Fin N) (Fin N) ℂ) (p q : Fin N)
    (hpq : p ≠ q) (h1 : overrelaxHit s (p, q) = some s') (h2 : overrelaxHit s' (p, q) = some s'') : s'' = s := by
  obtain ⟨a, len, hlen, hdet, hproj, e1, e2⟩ := overrelaxHit_eq s s' (p, q) hpq h1
  obtain ⟨b, len', hlen', hdet', hproj', f1, f2⟩ := overrelaxHit_eq s' s'' (p, q) hpq h2
  dsimp only at *
  -- the new projection is the conjugate
  have hnew : SU2.projectFromMatrix s'.2 p q = a.dagger.scale len := by
    rw [e2]
    have hsub : ∀ M : Matrix (Fin 2) (Fin 2) ℂ, (!![(embed p q M * s.2) p p, (embed p q M * s.2) p q;
        (embed p q M * s.2) q p, (embed p q M * s.2) q q] : Matrix (Fin 2) (Fin 2) ℂ) =
        M * !![s.2 p p, s.2 p q; s.2 q p, s.2 q q] := by
      intro M
      rw [← multBy2x2Left_eq _ _ _ hpq]
      ext i j
      fin_cases i <;> fin_cases j <;> simp [multBy2x2Left, hpq, Matrix.mul_apply, Fin.sum_univ_two]
    -- compare traces against all elements
    have key : ∀ x : SU2, x.mulTrace (SU2.projectFromMatrix (embed p q (a.dagger.mul a.dagger).toMatrix * s.2) p q) =
        x.mulTrace (a.dagger.scale len) := by
      intro x
      rw [← (C28_projection x _ p q).2, hsub, ← Matrix.mul_assoc, ← toMatrix_mul, (C28_projection _ s.2 p q).2, hproj,
        mulTrace_scale, mulTrace_scale]
      congr 1
      unfold SU2.det at hdet
      unfold SU2.mulTrace SU2.mul SU2.dagger
      dsimp only
      linear_combination 2 * (x.d * a.d + x.a * a.a + x.b * a.b + x.c * a.c) * hdet
    have k1 := key ⟨1, 0, 0, 0⟩
    have k2 := key ⟨0, 1, 0, 0⟩
    have k3 := key ⟨0, 0, 1, 0⟩
    have k4 := key ⟨0, 0, 0, 1⟩
    simp only [SU2.mulTrace, zero_mul, one_mul, zero_sub, sub_zero] at k1 k2 k3 k4
    ext <;> linarith
  have hb : b = a.dagger := by
    have e : b.scale len' = a.dagger.scale len := by rw [← hproj', hnew]
    have hl : len' = len := by
      have d1 : (b.scale len').det = len' ^ 2 := by
        have : (b.scale len').det = b.det * len' ^ 2 := by unfold SU2.det SU2.scale; ring
        rw [this, hdet', one_mul]
      have d2 : (a.dagger.scale len).det = len ^ 2 := by
        have : (a.dagger.scale len).det = a.dagger.det * len ^ 2 := by unfold SU2.det SU2.scale; ring
        rw [this, det_dagger, hdet, one_mul]
      have : len' ^ 2 = len ^ 2 := by rw [← d1, ← d2, e]
      exact (pow_left_inj₀ hlen'.le hlen.le two_ne_zero).1 this
    rw [hl] at e
    have hne := hlen.ne'
    have c1 := congrArg SU2.a e
    have c2 := congrArg SU2.b e
    have c3 := congrArg SU2.c e
    have c4 := congrArg SU2.d e
    unfold SU2.scale at c1 c2 c3 c4
    ext
    · exact mul_right_cancel₀ hne c1
    · exact mul_right_cancel₀ hne c2
    · exact mul_right_cancel₀ hne c3
    · exact mul_right_cancel₀ hne c4
  have hprod : (b.dagger.mul b.dagger).toMatrix * (a.dagger.mul a.dagger).toMatrix = 1 := by
    rw [← toMatrix_mul, ← toMatrix_one, hb]
    congr 1
    unfold SU2.det at hdet
    unfold SU2.mul SU2.dagger SU2.ofScalar
    ext <;> simp
    · ring
    · ring
    · ring
    · linear_combination (a.a * a.a + a.b * a.b + a.c * a.c + a.d * a.d + 1) * hdet
  apply Prod.ext
  · rw [f1, e1, ← Matrix.mul_assoc, embed_mul p q hpq, hprod, embed_one, Matrix.one_mul]
  · rw [f2, e2, ← Matrix.mul_assoc, embed_mul p q hpq, hprod, embed_one, Matrix.one_mul]

/-- **C29 fails if a projection vanishes.** For a zero staple (and two or more colours) the normalisation
divides zero by zero. -/
theorem C29_zero_staple_undefined (U : Matrix (Fin (N + 2)) (Fin (N + 2)) ℂ) : suNOverrelax U 0 = none := by
  unfold suNOverrelax
  have hsub : ∃ t : (Fin (N + 2) × Fin (N + 2)) × List (Fin (N + 2) × Fin (N + 2)), subgroups (N + 2) = t.1 :: t.2 := by
    cases h : subgroups (N + 2) with
    | nil =>
      have := ((subgroups_spec (N + 2)).2 0 1).2 (by simp)
      rw [h] at this
      simp at this
    | cons a l => exact ⟨(a, l), rfl⟩
  obtain ⟨⟨pq, l⟩, hsub⟩ := hsub
  rw [hsub, List.foldlM_cons]
  have : overrelaxHit (U, U * (0 : Matrix (Fin (N + 2)) (Fin (N + 2)) ℂ)ᴴ) pq = none := by
    unfold overrelaxHit
    have hz : SU2.projectFromMatrix (U * (0 : Matrix (Fin (N + 2)) (Fin (N + 2)) ℂ)ᴴ) pq.1 pq.2 = SU2.ofScalar 0 := by
      rw [Matrix.conjTranspose_zero, Matrix.mul_zero]
      unfold SU2.projectFromMatrix SU2.ofScalar
      simp
    dsimp only
    rw [hz, (C28_normalize _).1 rfl]
  rw [this]
  rfl

/-! ### The full SU(N) overrelaxation -/

theorem dfjPhases_prod (imin : Fin N) (theta : Fin N → ℝ) (phiN : ℝ) :
    ∏ i, dfjPhases imin theta phiN i = Complex.exp (((-(N * phiN) : ℝ) : ℂ) * I) := by
  have hN : (Finset.univ.filter (· ≠ imin) : Finset (Fin N)) = Finset.univ.erase imin := by
    ext; simp
  have h1 : ∀ i, dfjPhases imin theta phiN i = Complex.exp (((if i = imin then
      -(∑ j ∈ Finset.univ.erase imin, theta j) - phiN else theta i - phiN : ℝ) : ℂ) * I) := by
    intro i
    unfold dfjPhases
    rw [hN]
    split <;> rfl
  rw [Finset.prod_congr rfl fun i _ => h1 i, ← Complex.exp_sum, ← Finset.sum_mul, ← Complex.ofReal_sum]
  congr 3
  rw [← Finset.add_sum_erase Finset.univ _ (Finset.mem_univ imin), if_pos rfl]
  have : ∑ x ∈ Finset.univ.erase imin, (if x = imin then -(∑ j ∈ Finset.univ.erase imin, theta j) - phiN
      else theta x - phiN) = ∑ x ∈ Finset.univ.erase imin, (theta x - phiN) := by
    apply Finset.sum_congr rfl
    intro x hx
    rw [if_neg (Finset.mem_erase.1 hx).1]
  rw [this, Finset.sum_sub_distrib, Finset.sum_const, Finset.card_erase_of_mem (Finset.mem_univ _), Finset.card_univ,
    Fintype.card_fin, nsmul_eq_mul]
  have hpos : 1 ≤ N := by have := imin.2; omega
  push_cast [Nat.cast_sub hpos]
  ring

theorem norm_dfjPhases (imin : Fin N) (theta : Fin N → ℝ) (phiN : ℝ) (i : Fin N) :
    dfjPhases imin theta phiN i * starRingEnd ℂ (dfjPhases imin theta phiN i) = 1 := by
  have : ‖dfjPhases imin theta phiN i‖ = 1 := by
    unfold dfjPhases
    split <;> exact Complex.norm_exp_ofReal_mul_I _
  rw [Complex.mul_conj, Complex.normSq_eq_norm_sq, this]
  norm_num

/-- **C29 (SVD overrelaxation).** For a link in SU(N), a staple `S = u D v†` with unitary `u`, `v`, singular
values `D ≥ 0` and nonzero determinant, and any angles: there is a `Z` in SU(N) that depends on the staple
only, such that the link becomes `Z U† Z` if the random number is below `exp(β/N (action' - action))` and is
kept otherwise; the result is in SU(N), and `Z (Z U† Z)† Z = U`. -/
theorem C29_dfj (S u v : Matrix (Fin N) (Fin N) ℂ) (D : Fin N → ℝ) (hu : u ∈ unitaryGroup (Fin N) ℂ)
    (hv : v ∈ unitaryGroup (Fin N) ℂ) (hD : ∀ i, 0 ≤ D i)
    (hS : S = u * Matrix.diagonal (fun i => (D i : ℂ)) * vᴴ) (hdet : S.det ≠ 0) (imin : Fin N) (theta : Fin N → ℝ) :
    ∃ Z ∈ specialUnitaryGroup (Fin N) ℂ, ∀ U ∈ specialUnitaryGroup (Fin N) ℂ, ∀ beta random : ℝ,
      (suNOverrelaxDFJ U S u v imin theta beta random =
        if random < Real.exp (beta / N * ((Z * Uᴴ * Z * Sᴴ).trace.re - (U * Sᴴ).trace.re)) then Z * Uᴴ * Z else U) ∧
      suNOverrelaxDFJ U S u v imin theta beta random ∈ specialUnitaryGroup (Fin N) ℂ ∧
      Z * (Z * Uᴴ * Z)ᴴ * Z = U := by
  have hvH : vᴴ ∈ unitaryGroup (Fin N) ℂ := by
    rw [← star_eq_conjTranspose]; exact Unitary.star_mem hv
  have hP : Matrix.diagonal (dfjPhases imin theta (Complex.arg S.det / N)) ∈ unitaryGroup (Fin N) ℂ := by
    rw [mem_unitaryGroup_iff, star_eq_conjTranspose, Matrix.diagonal_conjTranspose, Matrix.diagonal_mul_diagonal]
    rw [← Matrix.diagonal_one]
    congr 1
    funext i
    exact norm_dfjPhases imin theta _ i
  have hpos : (N : ℝ) ≠ 0 := by have := imin.2; exact Nat.cast_ne_zero.2 (by omega)
  have hZ : u * Matrix.diagonal (dfjPhases imin theta (Complex.arg S.det / N)) * vᴴ ∈ specialUnitaryGroup (Fin N) ℂ := by
    refine mem_specialUnitaryGroup_iff.2 ⟨mul_mem (mul_mem hu hP) hvH, ?_⟩
    rw [Matrix.det_mul, Matrix.det_mul, Matrix.det_diagonal, dfjPhases_prod, mul_div_cancel₀ _ hpos]
    -- the phase of the determinant of the staple
    have hphase : u.det * (vᴴ).det = Complex.exp (Complex.arg S.det * I) := by
      have hdS : S.det = ((∏ i, D i : ℝ) : ℂ) * (u.det * (vᴴ).det) := by
        rw [hS, Matrix.det_mul, Matrix.det_mul, Matrix.det_diagonal]
        push_cast
        ring
      have hn : ‖u.det * (vᴴ).det‖ = 1 := by
        rw [norm_mul]
        have h1 : ‖u.det‖ = 1 := by
          have := Matrix.det_of_mem_unitary hu
          exact CStarRing.norm_of_mem_unitary this
        have h2 : ‖(vᴴ).det‖ = 1 := by
          have := Matrix.det_of_mem_unitary hvH
          exact CStarRing.norm_of_mem_unitary this
        rw [h1, h2, one_mul]
      have hDpos : 0 ≤ ∏ i, D i := Finset.prod_nonneg fun i _ => hD i
      have hnS : ‖S.det‖ = ∏ i, D i := by
        rw [hdS, norm_mul, hn, mul_one, Complex.norm_of_nonneg hDpos]
      have h0 : ((∏ i, D i : ℝ) : ℂ) ≠ 0 := by
        intro h; apply hdet; rw [hdS, h, zero_mul]
      have := Complex.norm_mul_exp_arg_mul_I S.det
      rw [hnS] at this
      nth_rewrite 2 [hdS] at this
      exact (mul_left_cancel₀ h0 this).symm
    calc u.det * Complex.exp (((-Complex.arg S.det : ℝ) : ℂ) * I) * (vᴴ).det
        = (u.det * (vᴴ).det) * Complex.exp (((-Complex.arg S.det : ℝ) : ℂ) * I) := by ring
      _ = 1 := by
        rw [hphase, ← Complex.exp_add]
        push_cast
        rw [neg_mul, add_neg_cancel, Complex.exp_zero]
  refine ⟨_, hZ, fun U hU beta random => ?_⟩
  have hUH : Uᴴ ∈ specialUnitaryGroup (Fin N) ℂ := by
    obtain ⟨h1, h2⟩ := mem_specialUnitaryGroup_iff.1 hU
    refine mem_specialUnitaryGroup_iff.2 ⟨by rw [← star_eq_conjTranspose]; exact Unitary.star_mem h1, ?_⟩
    rw [Matrix.det_conjTranspose, h2, star_one]
  have eq : suNOverrelaxDFJ U S u v imin theta beta random =
      if random < Real.exp (beta / N * ((u * Matrix.diagonal (dfjPhases imin theta (Complex.arg S.det / N)) * vᴴ * Uᴴ *
        (u * Matrix.diagonal (dfjPhases imin theta (Complex.arg S.det / N)) * vᴴ) * Sᴴ).trace.re - (U * Sᴴ).trace.re))
      then u * Matrix.diagonal (dfjPhases imin theta (Complex.arg S.det / N)) * vᴴ * Uᴴ *
        (u * Matrix.diagonal (dfjPhases imin theta (Complex.arg S.det / N)) * vᴴ) else U := by
    unfold suNOverrelaxDFJ
    dsimp only
    rw [Matrix.sub_mul, Matrix.trace_sub, Complex.sub_re]
  refine ⟨eq, ?_, ?_⟩
  · rw [eq]
    split
    · exact mul_mem (mul_mem hZ hUH) hZ
    · exact hU
  · generalize u * Matrix.diagonal (dfjPhases imin theta (Complex.arg S.det / N)) * vᴴ = Z at hZ
    have hZu := (mem_specialUnitaryGroup_iff.1 hZ).1
    have h1 : Z * Zᴴ = 1 := by rw [← star_eq_conjTranspose]; exact mem_unitaryGroup_iff.1 hZu
    have h2 : Zᴴ * Z = 1 := by rw [← star_eq_conjTranspose]; exact mem_unitaryGroup_iff'.1 hZu
    rw [Matrix.conjTranspose_mul, Matrix.conjTranspose_mul, Matrix.conjTranspose_conjTranspose]
    calc Z * (Zᴴ * (U * Zᴴ)) * Z = (Z * Zᴴ) * U * (Zᴴ * Z) := by simp only [Matrix.mul_assoc]
      _ = U := by rw [h1, h2, Matrix.one_mul, Matrix.mul_one]

/-! ### Heat bath -/

theorem kpTrial_nonneg (rnd : ℕ → ℝ) (h : ∀ k, 0 ≤ rnd k ∧ rnd k < 1) (al : ℝ) (hal : 0 < al) (k : ℕ) :
    0 ≤ (kpTrial rnd al k).1 := by
  unfold kpTrial
  dsimp only
  have hl : ∀ k, Real.log (1 - rnd k) ≤ 0 := fun k =>
    Real.log_nonpos (by linarith [(h k).2]) (by linarith [(h k).1])
  have h1 := hl k
  have h2 := hl (k + 1)
  generalize Real.cos (2 * Real.pi * rnd (k + 2)) = c
  apply div_nonneg _ hal.le
  have := mul_nonneg (neg_nonneg.2 h1) (mul_self_nonneg c)
  nlinarith

theorem kpLoop_range (rnd : ℕ → ℝ) (h : ∀ k, 0 ≤ rnd k ∧ rnd k < 1) (al : ℝ) (hal : 0 < al) (fuel k : ℕ) (d : ℝ) :
    (0 ≤ (kpLoop rnd al fuel k d).1 ∧ (kpLoop rnd al fuel k d).1 ≤ 2) ∨
      ∀ i < fuel, 1 - 0.5 * (kpTrial rnd al (k + 4 * i)).1 ≤ (kpTrial rnd al (k + 4 * i)).2 * (kpTrial rnd al (k + 4 * i)).2 := by
  induction fuel generalizing k d with
  | zero => right; intro i hi; omega
  | succ fuel ih =>
    unfold kpLoop
    dsimp only
    split
    · left
      rename_i ht
      refine ⟨kpTrial_nonneg rnd h al hal k, ?_⟩
      have := mul_self_nonneg (kpTrial rnd al k).2
      norm_num at ht ⊢
      linarith
    · rename_i ht
      rcases ih (k + 4) (kpTrial rnd al k).1 with hr | hr
      · left; exact hr
      · right
        intro i hi
        cases i with
        | zero => simpa using not_lt.1 ht
        | succ i =>
          have := hr i (by omega)
          rw [show k + 4 + 4 * i = k + 4 * (i + 1) by ring] at this
          exact this

theorem creutzLoop_range (rnd : ℕ → ℝ) (h : ∀ k, 0 ≤ rnd k ∧ rnd k < 1) (al : ℝ) (hal : 0 < al) (fuel k : ℕ) (a0 : ℝ)
    (ha0 : -1 ≤ a0 ∧ a0 ≤ 1) : -1 ≤ (creutzLoop rnd al fuel k a0).1 ∧ (creutzLoop rnd al fuel k a0).1 ≤ 1 := by
  induction fuel generalizing k a0 with
  | zero => exact ha0
  | succ fuel ih =>
    have hx : 0 < Real.exp (-2 * al) := Real.exp_pos _
    have hx1 : Real.exp (-2 * al) ≤ 1 := Real.exp_le_one_iff.2 (by linarith)
    have hlow : Real.exp (-2 * al) ≤ Real.exp (-2 * al) + (1 - Real.exp (-2 * al)) * rnd k := by
      have := mul_nonneg (sub_nonneg.2 hx1) (h k).1
      linarith
    have hhigh : Real.exp (-2 * al) + (1 - Real.exp (-2 * al)) * rnd k ≤ 1 := by
      have := mul_le_mul_of_nonneg_left (h k).2.le (sub_nonneg.2 hx1)
      linarith
    have hlog1 : -2 * al ≤ Real.log (Real.exp (-2 * al) + (1 - Real.exp (-2 * al)) * rnd k) :=
      (Real.le_log_iff_exp_le (by linarith)).2 hlow
    have hlog2 : Real.log (Real.exp (-2 * al) + (1 - Real.exp (-2 * al)) * rnd k) ≤ 0 :=
      Real.log_nonpos (by linarith) hhigh
    have hr : -1 ≤ 1 + Real.log (Real.exp (-2 * al) + (1 - Real.exp (-2 * al)) * rnd k) / al ∧
        1 + Real.log (Real.exp (-2 * al) + (1 - Real.exp (-2 * al)) * rnd k) / al ≤ 1 := by
      constructor
      · have := div_le_div_of_nonneg_right hlog1 hal.le
        rw [mul_div_assoc, div_self hal.ne'] at this
        linarith
      · have := div_nonpos_of_nonpos_of_nonneg hlog2 hal.le
        linarith
    unfold creutzLoop
    dsimp only
    split
    · exact hr
    · exact ih _ _ hr

/-- All 41 trials of a hit with `al > 2` fail. -/
def TrialsExhausted (rnd : ℕ → ℝ) (al : ℝ) (k : ℕ) : Prop :=
  ∀ i ≤ 40, 1 - 0.5 * (kpTrial rnd al (k + 4 * i)).1 ≤ (kpTrial rnd al (k + 4 * i)).2 * (kpTrial rnd al (k + 4 * i)).2

theorem heatbathD_range (rnd : ℕ → ℝ) (h : ∀ k, 0 ≤ rnd k ∧ rnd k < 1) (al : ℝ) (hal : 0 < al) (k : ℕ) :
    (0 ≤ (heatbathD rnd al k).1 ∧ (heatbathD rnd al k).1 ≤ 2) ∨ (al > 2 ∧ TrialsExhausted rnd al k) := by
  unfold heatbathD
  dsimp only
  split
  · rename_i ht
    split
    · rename_i h2
      rcases kpLoop_range rnd h al hal 40 (k + 4) (kpTrial rnd al k).1 with hr | hr
      · left; exact hr
      · right
        refine ⟨h2, fun i hi => ?_⟩
        cases i with
        | zero => simpa using ht
        | succ i =>
          have := hr i (by omega)
          rw [show k + 4 + 4 * i = k + 4 * (i + 1) by ring] at this
          exact this
    · left
      have := creutzLoop_range rnd h al hal 40 (k + 4) 0 ⟨by norm_num, by norm_num⟩
      dsimp only
      constructor <;> linarith [this.1, this.2]
  · left
    rename_i ht
    have := mul_self_nonneg (kpTrial rnd al k).2
    refine ⟨kpTrial_nonneg rnd h al hal k, ?_⟩
    norm_num at ht ⊢
    linarith

theorem heatbathMatrix_det (rnd : ℕ → ℝ) (h : ∀ k, 0 ≤ rnd k ∧ rnd k < 1) (d : ℝ) (k : ℕ) :
    (heatbathMatrix rnd d k).det = (1 - d) * (1 - d) + |1 - (1 - d) * (1 - d)| := by
  unfold heatbathMatrix SU2.det
  dsimp only
  have hr2 : 0 ≤ |1 - (1 - d) * (1 - d)| := abs_nonneg _
  generalize |1 - (1 - d) * (1 - d)| = r2 at *
  have hs : Real.sqrt r2 * Real.sqrt r2 = r2 := Real.mul_self_sqrt hr2
  have hx : (2 * rnd k - 1) * (2 * rnd k - 1) ≤ 1 := by nlinarith [(h k).1, (h k).2]
  have hac : (2 * rnd k - 1) * Real.sqrt r2 * ((2 * rnd k - 1) * Real.sqrt r2) = (2 * rnd k - 1) * (2 * rnd k - 1) * r2 := by
    calc _ = (2 * rnd k - 1) * (2 * rnd k - 1) * (Real.sqrt r2 * Real.sqrt r2) := by ring
      _ = _ := by rw [hs]
  rw [hac]
  have hle : (2 * rnd k - 1) * (2 * rnd k - 1) * r2 ≤ r2 := by nlinarith
  have habs : |r2 - (2 * rnd k - 1) * (2 * rnd k - 1) * r2| = r2 - (2 * rnd k - 1) * (2 * rnd k - 1) * r2 :=
    abs_of_nonneg (by linarith)
  rw [habs]
  have hrho : Real.sqrt (r2 - (2 * rnd k - 1) * (2 * rnd k - 1) * r2) * Real.sqrt (r2 - (2 * rnd k - 1) * (2 * rnd k - 1) * r2) =
      r2 - (2 * rnd k - 1) * (2 * rnd k - 1) * r2 := Real.mul_self_sqrt (by linarith)
  generalize Real.sqrt (r2 - (2 * rnd k - 1) * (2 * rnd k - 1) * r2) = rho at *
  have hsc := Real.sin_sq_add_cos_sq (2 * Real.pi * rnd (k + 1))
  generalize Real.sin (2 * Real.pi * rnd (k + 1)) = sn at *
  generalize Real.cos (2 * Real.pi * rnd (k + 1)) = cs at *
  linear_combination rho * rho * hsc + hrho

theorem div_sqrt_det (v : SU2) (hz : Real.sqrt v.det ≠ 0) : (v.div (Real.sqrt v.det)).det = 1 := by
  have hne : v ≠ SU2.ofScalar 0 := by
    rintro rfl
    apply hz
    simp [SU2.ofScalar, SU2.det]
  obtain ⟨y, hy, hdet, _⟩ := (C28_normalize v).2 hne
  unfold SU2.normalize at hy
  rw [if_neg hz] at hy
  rw [Option.some.inj hy]
  exact hdet

/-- **C48 (heat bath).** For every N, link in SU(N), staple, positive coupling and stream of random numbers
in [0, 1): if the update is defined, the new link is in SU(N), except if in some hit all 41 trials of the
Kennedy–Pendleton method fail. Missing (`_partial`): that exception, see `C48_heatbath_leaves_group`. -/
theorem C48_heatbath_partial (rnd : ℕ → ℝ) (h : ∀ k, 0 ≤ rnd k ∧ rnd k < 1) (beta : ℝ) (hbeta : 0 < beta)
    (U U' staple : Matrix (Fin N) (Fin N) ℂ) (hU : U ∈ specialUnitaryGroup (Fin N) ℂ)
    (hr : suNHeatbath rnd beta U staple = some U') :
    U' ∈ specialUnitaryGroup (Fin N) ℂ ∨ ∃ al > 2, ∃ k, TrialsExhausted rnd al k := by
  unfold suNHeatbath at hr
  obtain ⟨s, hs, rfl⟩ := Option.map_eq_some_iff.1 hr
  refine foldlM_some_inv
    (fun s : (Matrix (Fin N) (Fin N) ℂ × Matrix (Fin N) (Fin N) ℂ) × ℕ =>
      s.1.1 ∈ specialUnitaryGroup (Fin N) ℂ ∨ ∃ al > 2, ∃ k, TrialsExhausted rnd al k)
    (heatbathHit rnd (beta / N)) (subgroups N) ((U, U * stapleᴴ), 0) s (Or.inl hU) ?_ hs
  intro s pq s' hpq hin hstep
  rcases hin with hin | hin
  swap
  · exact Or.inr hin
  have hne := subgroups_ne pq hpq
  have hNpos : 0 < (N : ℝ) := by
    have := pq.1.2
    exact Nat.cast_pos.2 (by omega)
  unfold heatbathHit at hstep
  dsimp only at hstep
  split at hstep
  · cases hstep
  · rename_i hz
    push Not at hz
    obtain rfl := (Option.some.inj hstep).symm
    dsimp only
    generalize hv : (SU2.mk (-((s.1.2 pq.1 pq.2).im + (s.1.2 pq.2 pq.1).im)) (-((s.1.2 pq.1 pq.2).re - (s.1.2 pq.2 pq.1).re))
      (-((s.1.2 pq.1 pq.1).im - (s.1.2 pq.2 pq.2).im)) ((s.1.2 pq.1 pq.1).re + (s.1.2 pq.2 pq.2).re)) = v at *
    have hal : 0 < beta / N * Real.sqrt v.det :=
      mul_pos (div_pos hbeta hNpos) (lt_of_le_of_ne (Real.sqrt_nonneg _) (Ne.symm hz.1))
    rcases heatbathD_range rnd h _ hal s.2 with hd | hd
    · left
      rw [multBy2x2Left_eq _ _ _ hne]
      refine mul_mem (embed_mem _ _ hne _ ?_) hin
      rw [C28_group.1, det_mul, div_sqrt_det v hz.1, mul_one, heatbathMatrix_det rnd h]
      generalize (heatbathD rnd (beta / N * Real.sqrt v.det) s.2).1 = d at *
      have : 0 ≤ 1 - (1 - d) * (1 - d) := by nlinarith [hd.1, hd.2]
      rw [abs_of_nonneg this]
      ring
    · right
      exact ⟨_, hd.1, _, hd.2⟩

/-- The stream used in the counterexample: always `1 - exp(-16)`. -/
noncomputable def badStream : ℕ → ℝ := fun _ => 1 - Real.exp (-16)

/-- **C48 fails if all trials are rejected.** For SU(2), the unit link, the unit staple and coupling 4 there
is a stream of random numbers in [0, 1) for which the updated link has a determinant above 1: the rejected
value is used and the square root of a negative number is replaced by that of its absolute value. -/
theorem C48_heatbath_leaves_group :
    (∀ k, 0 ≤ badStream k ∧ badStream k < 1) ∧
      ∃ U', suNHeatbath (N := 2) badStream 4 1 1 = some U' ∧ U' ∉ specialUnitaryGroup (Fin 2) ℂ := by
  have hrange : ∀ k, 0 ≤ badStream k ∧ badStream k < 1 := by
    intro k
    have h1 := Real.exp_pos (-16)
    have h2 : Real.exp (-16) ≤ 1 := Real.exp_le_one_iff.2 (by norm_num)
    unfold badStream
    constructor <;> linarith
  refine ⟨hrange, ?_⟩
  have hsub : subgroups 2 = [(0, 1)] := by decide
  have htrial : ∀ k, 4 ≤ (kpTrial badStream 4 k).1 := by
    intro k
    unfold kpTrial badStream
    dsimp only
    rw [show 1 - (1 - Real.exp (-16)) = Real.exp (-16) by ring, Real.log_exp]
    generalize Real.cos (2 * Real.pi * (1 - Real.exp (-16))) = c
    have := mul_self_nonneg c
    rw [le_div_iff₀ (by norm_num)]
    nlinarith
  have hfail : ∀ k, 1 - 0.5 * (kpTrial badStream 4 k).1 ≤ (kpTrial badStream 4 k).2 * (kpTrial badStream 4 k).2 := by
    intro k
    have h1 := htrial k
    have h2 := mul_self_nonneg (kpTrial badStream 4 k).2
    norm_num
    linarith
  have hloop : ∀ fuel k d, 4 ≤ d → 4 ≤ (kpLoop badStream 4 fuel k d).1 := by
    intro fuel
    induction fuel with
    | zero => intro k d hd; exact hd
    | succ fuel ih =>
      intro k d _
      unfold kpLoop
      dsimp only
      rw [if_neg (not_lt.2 (hfail k))]
      exact ih _ _ (htrial k)
  have hd : 4 ≤ (heatbathD badStream 4 0).1 := by
    unfold heatbathD
    dsimp only
    rw [if_pos (hfail 0), if_pos (by norm_num)]
    exact hloop _ _ _ (htrial 0)
  have hv : (⟨-(((1 : Matrix (Fin 2) (Fin 2) ℂ) 0 1).im + ((1 : Matrix (Fin 2) (Fin 2) ℂ) 1 0).im),
      -(((1 : Matrix (Fin 2) (Fin 2) ℂ) 0 1).re - ((1 : Matrix (Fin 2) (Fin 2) ℂ) 1 0).re),
      -(((1 : Matrix (Fin 2) (Fin 2) ℂ) 0 0).im - ((1 : Matrix (Fin 2) (Fin 2) ℂ) 1 1).im),
      ((1 : Matrix (Fin 2) (Fin 2) ℂ) 0 0).re + ((1 : Matrix (Fin 2) (Fin 2) ℂ) 1 1).re⟩ : SU2) = ⟨0, 0, 0, 2⟩ := by
    ext <;> simp
    norm_num
  have hz : Real.sqrt (⟨0, 0, 0, 2⟩ : SU2).det = 2 := by
    have : (⟨0, 0, 0, 2⟩ : SU2).det = 2 * 2 := by unfold SU2.det; norm_num
    rw [this, Real.sqrt_mul_self (by norm_num)]
  have hal : (4 : ℝ) / ((2 : ℕ) : ℝ) * 2 = 4 := by norm_num
  unfold suNHeatbath
  rw [hsub]
  simp only [List.foldlM_cons, List.foldlM_nil]
  rw [Matrix.conjTranspose_one, Matrix.mul_one]
  unfold heatbathHit
  dsimp only
  rw [hv, hz, hal, if_neg (by norm_num)]
  refine ⟨_, rfl, ?_⟩
  intro hmem
  have hdet := (mem_specialUnitaryGroup_iff.1 hmem).2
  simp only at hdet
  rw [multBy2x2Left_eq _ _ _ (by decide), Matrix.mul_one, embed_det _ _ (by decide), toMatrix_det, det_mul,
    heatbathMatrix_det _ hrange] at hdet
  have h1 : ((⟨0, 0, 0, 2⟩ : SU2).div 2).det = 1 := by unfold SU2.div SU2.det; norm_num
  rw [h1, mul_one] at hdet
  have hdet' := Complex.ofReal_eq_one.1 hdet
  generalize (heatbathD badStream 4 0).1 = d at *
  have habs := abs_nonneg (1 - (1 - d) * (1 - d))
  nlinarith

/-! ### SU(2) heat bath -/

theorem kennedyLoop_range (rnd : ℕ → ℝ) (h : ∀ k, 0 ≤ rnd k ∧ rnd k < 1) (alpha : ℝ) (hal : 0 < alpha) (fuel n k : ℕ)
    (hf : fuel + n = 100) (hpos : 0 < fuel) :
    (kennedyLoop rnd alpha fuel n k).2.1 ≥ 100 ∨
      (0 ≤ (kennedyLoop rnd alpha fuel n k).1 ∧ (kennedyLoop rnd alpha fuel n k).1 ≤ 2) := by
  induction fuel generalizing n k with
  | zero => omega
  | succ fuel ih =>
    have hl : ∀ k, 0 ≤ -Real.log (1 - rnd k) := fun k =>
      neg_nonneg.2 (Real.log_nonpos (by linarith [(h k).2]) (by linarith [(h k).1]))
    have hdelta : 0 ≤ (-Real.log (1 - rnd k) * (Real.cos (2 * Real.pi * rnd (k + 2)) * Real.cos (2 * Real.pi * rnd (k + 2))) +
        -Real.log (1 - rnd (k + 1))) / alpha :=
      div_nonneg (add_nonneg (mul_nonneg (hl _) (mul_self_nonneg _)) (hl _)) hal.le
    unfold kennedyLoop
    dsimp only
    generalize (-Real.log (1 - rnd k) * (Real.cos (2 * Real.pi * rnd (k + 2)) * Real.cos (2 * Real.pi * rnd (k + 2))) +
        -Real.log (1 - rnd (k + 1))) / alpha = delta at *
    split
    · rename_i hc
      exact ih (n + 1) (k + 4) (by omega) (by omega)
    · rename_i hc
      dsimp only
      by_cases hn : n + 1 < 100
      · right
        have : ¬ rnd (k + 3) * rnd (k + 3) > 1 - 0.5 * delta := fun h => hc ⟨hn, h⟩
        have h2 := mul_self_nonneg (rnd (k + 3))
        refine ⟨hdelta, ?_⟩
        norm_num at this ⊢
        linarith
      · left; omega

/-- **C48 (SU(2) heat bath).** `KennedyPendleton` is defined exactly for nonzero staples, and its result is
always in SU(2), also if the loop limit is reached. -/
theorem C48_kennedy_pendleton (rnd : ℕ → ℝ) (h : ∀ k, 0 ≤ rnd k ∧ rnd k < 1) (staple : SU2) :
    (kennedyPendleton rnd staple = none ↔ staple.det = 0) ∧
      ∀ U, kennedyPendleton rnd staple = some U → U.toMatrix ∈ specialUnitaryGroup (Fin 2) ℂ := by
  have hdet0 : 0 ≤ staple.det := by
    unfold SU2.det
    have h1 := mul_self_nonneg staple.a
    have h2 := mul_self_nonneg staple.b
    have h3 := mul_self_nonneg staple.c
    have h4 := mul_self_nonneg staple.d
    linarith
  constructor
  · unfold kennedyPendleton
    dsimp only
    split
    · rename_i hz
      simpa using (Real.sqrt_eq_zero hdet0).1 hz
    · rename_i hz
      simp only [reduceCtorEq, false_iff]
      intro h0
      apply hz
      rw [h0, Real.sqrt_zero]
  · intro U hU
    unfold kennedyPendleton at hU
    dsimp only at hU
    split at hU
    · cases hU
    · rename_i hz
      have hxi : 0 < Real.sqrt staple.det := lt_of_le_of_ne (Real.sqrt_nonneg _) (Ne.symm hz)
      have hl := kennedyLoop_range rnd h (2 * Real.sqrt staple.det) (by linarith) 100 0 0 rfl (by norm_num)
      generalize kennedyLoop rnd (2 * Real.sqrt staple.det) 100 0 0 = l at *
      obtain rfl := (Option.some.inj hU).symm
      rw [C28_group.1, det_mul, div_sqrt_det staple hz, mul_one]
      have ha0 : 0 ≤ 1 - (if l.2.1 ≥ 100 then (1e-9 : ℝ) else 1 - l.1) * (if l.2.1 ≥ 100 then (1e-9 : ℝ) else 1 - l.1) := by
        split
        · norm_num
        · rename_i hn
          rcases hl with hl | hl
          · exact absurd hl hn
          · nlinarith [hl.1, hl.2]
      generalize (if l.2.1 ≥ 100 then (1e-9 : ℝ) else 1 - l.1) = a0 at *
      have hrd : (if 1 - a0 * a0 ≤ 0 then 0 else 1 - a0 * a0) = 1 - a0 * a0 := by
        split
        · linarith
        · rfl
      rw [hrd]
      have hx : 0 ≤ 1 - (2 * rnd l.2.2 - 1) * (2 * rnd l.2.2 - 1) := by
        nlinarith [(h l.2.2).1, (h l.2.2).2]
      generalize 2 * rnd l.2.2 - 1 = r3 at *
      have hs1 := Real.mul_self_sqrt (mul_nonneg ha0 hx)
      have hs2 := Real.mul_self_sqrt ha0
      have hsc := Real.sin_sq_add_cos_sq (2 * Real.pi * rnd (l.2.2 + 1))
      unfold SU2.det SU2.neg
      dsimp only
      generalize Real.sin (2 * Real.pi * rnd (l.2.2 + 1)) = sn at *
      generalize Real.cos (2 * Real.pi * rnd (l.2.2 + 1)) = cs at *
      generalize Real.sqrt ((1 - a0 * a0) * (1 - r3 * r3)) = s1 at *
      generalize Real.sqrt (1 - a0 * a0) = s2 at *
      linear_combination s1 * s1 * hsc + hs1 + r3 * r3 * hs2

/-! ### Sherman–Morrison -/

/-- **C49.** If no diagonal element is zero and the denominator is not, the result is the inverse of the
diagonal matrix plus the constant matrix. -/
theorem C49_inverse (D : Fin N → ℝ) (c : ℝ) (hD : ∀ i, D i ≠ 0) (hc : 1 + c * ∑ i, 1 / D i ≠ 0) :
    (Matrix.diagonal D + Matrix.of fun _ _ => c) * invertDiagonalPlusConstant D c = 1 := by
  unfold invertDiagonalPlusConstant
  dsimp only
  ext i j
  rw [Matrix.add_mul, Matrix.add_apply, Matrix.diagonal_mul, Matrix.mul_apply]
  simp only [Matrix.sub_apply, Matrix.of_apply, Matrix.diagonal_apply, mul_sub, Finset.sum_sub_distrib, mul_ite, mul_zero,
    Finset.sum_ite_eq', Finset.mem_univ, if_true, Matrix.one_apply]
  have e : ∑ x, c * (c / (1 + c * ∑ i, 1 / D i) * (1 / D x) * (1 / D j)) =
      c * (c / (1 + c * ∑ i, 1 / D i)) * (∑ x, 1 / D x) * (1 / D j) := by
    generalize c / (1 + c * ∑ i, 1 / D i) = w
    rw [Finset.mul_sum, Finset.sum_mul]
    exact Finset.sum_congr rfl fun x _ => by ring
  rw [e]
  have hDi := hD i
  have hDj := hD j
  generalize (∑ x, 1 / D x) = t at *
  split
  · rename_i hij
    subst hij
    field_simp
    ring
  · field_simp
    ring

/-- **C49 (existence).** The denominator vanishes exactly if the matrix is singular. -/
theorem C49_singular (D : Fin N → ℝ) (c : ℝ) (hD : ∀ i, D i ≠ 0) :
    1 + c * ∑ i, 1 / D i = 0 → (Matrix.diagonal D + Matrix.of fun _ _ => c).det = 0 := by
  intro h
  apply Matrix.exists_mulVec_eq_zero_iff.1
  refine ⟨fun i => 1 / D i, ?_, ?_⟩
  · intro h0
    have : ∑ i, 1 / D i = 0 := Finset.sum_eq_zero fun i _ => congrFun h0 i
    rw [this, mul_zero, add_zero] at h
    exact one_ne_zero h
  · funext i
    rw [Matrix.add_mulVec, Pi.add_apply, Matrix.mulVec_diagonal, mul_one_div_cancel (hD i)]
    simp only [Matrix.mulVec, dotProduct, Matrix.of_apply, ← Finset.mul_sum, Pi.zero_apply]
    exact h

/-! ### Concrete cases -/

/-- A defined overrelaxation that changes the link: unit link, staple `i σ₁ (3/5) + 4/5`. -/
example : (SU2.projectFromMatrix ((1 : Matrix (Fin 2) (Fin 2) ℂ) * ((⟨3 / 5, 0, 0, 4 / 5⟩ : SU2).toMatrix)ᴴ) 0 1).det = 1 := by
  rw [Matrix.one_mul, ← toMatrix_dagger, (C28_projection _ (1 : Matrix (Fin 2) (Fin 2) ℂ) 0 1).1]
  norm_num [SU2.det, SU2.dagger]

example : ∃ U', suNOverrelax (N := 2) 1 (⟨3 / 5, 0, 0, 4 / 5⟩ : SU2).toMatrix = some U' := by
  have hsub : subgroups 2 = [(0, 1)] := by decide
  unfold suNOverrelax
  rw [hsub]
  simp only [List.foldlM_cons, List.foldlM_nil]
  unfold overrelaxHit
  dsimp only
  have hne : SU2.projectFromMatrix ((1 : Matrix (Fin 2) (Fin 2) ℂ) * ((⟨3 / 5, 0, 0, 4 / 5⟩ : SU2).toMatrix)ᴴ) 0 1 ≠
      SU2.ofScalar 0 := by
    rw [Matrix.one_mul, ← toMatrix_dagger, (C28_projection _ (1 : Matrix (Fin 2) (Fin 2) ℂ) 0 1).1]
    intro h
    have := congrArg SU2.d h
    norm_num [SU2.dagger, SU2.ofScalar] at this
  obtain ⟨a, ha, _⟩ := (C28_normalize _).2 hne
  rw [ha]
  exact ⟨_, rfl⟩

example : ((1 : Matrix (Fin 2) (Fin 2) ℂ)) ∈ specialUnitaryGroup (Fin 2) ℂ := one_mem _

/-- A stream of random numbers. -/
example : ∀ _ : ℕ, (0 : ℝ) ≤ 1 / 2 ∧ (1 / 2 : ℝ) < 1 := fun _ => by norm_num

/-- A staple with its decomposition: unit matrices and singular values 2. -/
example : (2 : ℂ) • (1 : Matrix (Fin 2) (Fin 2) ℂ) = 1 * Matrix.diagonal (fun _ => ((2 : ℝ) : ℂ)) * (1 : Matrix (Fin 2) (Fin 2) ℂ)ᴴ := by
  rw [Matrix.conjTranspose_one, Matrix.one_mul, Matrix.mul_one]
  ext i j
  fin_cases i <;> fin_cases j <;> simp

example : (1 : ℝ) + 3 * ∑ i : Fin 2, 1 / (![1, 2] : Fin 2 → ℝ) i ≠ 0 := by
  norm_num [Fin.sum_univ_two]

end Hila
