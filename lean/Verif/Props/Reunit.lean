import Verif.Model.Reunit
import Verif.Props.LinAlg
import Verif.Props.LinkUpdate
import Verif.Lemmas.SUN
import Mathlib.LinearAlgebra.Matrix.Block
import Mathlib.LinearAlgebra.Matrix.NonsingularInverse

/-!
# C55: projection to SU(N) and random SU(N) matrices
-/

set_option linter.unusedSectionVars false

namespace Hila

open Matrix

variable {N : ℕ}

/-- Lower triangular with positive diagonal: the factor by which the rows were combined. -/
structure PosLower (L : Matrix (Fin N) (Fin N) ℂ) : Prop where
  lower : ∀ i j, i < j → L i j = 0
  im : ∀ i, (L i i).im = 0
  pos : ∀ i, 0 < (L i i).re

theorem PosLower.one : PosLower (1 : Matrix (Fin N) (Fin N) ℂ) :=
  ⟨fun i j h => Matrix.one_apply_ne h.ne, fun i => by simp, fun i => by simp⟩

theorem PosLower.det_ne {L : Matrix (Fin N) (Fin N) ℂ} (h : PosLower L) : L.det ≠ 0 := by
  rw [Matrix.det_of_isLowerTriangular L (fun i j hij => h.lower i j hij)]
  refine Finset.prod_ne_zero_iff.2 fun i _ e => ?_
  have := h.pos i
  rw [e] at this
  exact lt_irrefl _ this

/-- What holds before row `t` is normalised. -/
structure GsInv (A : Matrix (Fin N) (Fin N) ℂ) (t : ℕ) (M : Matrix (Fin N) (Fin N) ℂ) : Prop where
  fac : ∃ L, PosLower L ∧ A = L * M
  orth : ∀ a b : Fin N, a.val < t → (M * Mᴴ) a b = if a = b then 1 else 0

theorem mul_ct_apply (M : Matrix (Fin N) (Fin N) ℂ) (a b : Fin N) : (M * Mᴴ) a b = ∑ i, M a i * star (M b i) := by
  simp only [Matrix.mul_apply, Matrix.conjTranspose_apply]

theorem rowSq_eq (M : Matrix (Fin N) (Fin N) ℂ) (r : Fin N) : ((rowSq M r : ℝ) : ℂ) = (M * Mᴴ) r r := by
  rw [mul_ct_apply, rowSq]
  push_cast
  exact Finset.sum_congr rfl fun i _ => (Complex.mul_conj _).symm

theorem rowSq_nonneg (M : Matrix (Fin N) (Fin N) ℂ) (r : Fin N) : 0 ≤ rowSq M r :=
  Finset.sum_nonneg fun i _ => Complex.normSq_nonneg _

theorem rowSq_ne {M : Matrix (Fin N) (Fin N) ℂ} (h : M.det ≠ 0) (r : Fin N) : rowSq M r ≠ 0 := by
  intro e
  refine h (Matrix.det_eq_zero_of_row_eq_zero r fun i => ?_)
  have := (Finset.sum_eq_zero_iff_of_nonneg fun i _ => Complex.normSq_nonneg (M r i)).1 e i (Finset.mem_univ _)
  exact Complex.normSq_eq_zero.1 this

theorem normalizeRow_run {A M : Matrix (Fin N) (Fin N) ℂ} {r : Fin N} (hI : GsInv A r.val M) (h0 : rowSq M r ≠ 0) :
    ∃ M', normalizeRow r M = some M' ∧ GsInv A r.val M' ∧ (M' * M'ᴴ) r r = 1 := by
  obtain ⟨⟨L, hL, hA⟩, ho⟩ := hI
  have hp : 0 < Real.sqrt (rowSq M r) := Real.sqrt_pos.2 (lt_of_le_of_ne (rowSq_nonneg M r) (Ne.symm h0))
  obtain ⟨c, hc⟩ : ∃ c, c = Real.sqrt (rowSq M r) := ⟨_, rfl⟩
  rw [← hc] at hp
  have hcc : ((c : ℝ) : ℂ) ≠ 0 := Complex.ofReal_ne_zero.2 hp.ne'
  have hsq : c * c = rowSq M r := by rw [hc]; exact Real.mul_self_sqrt (rowSq_nonneg M r)
  unfold normalizeRow
  rw [if_neg h0, ← hc]
  have hMM : ∀ a b : Fin N, ((Matrix.of fun j i => if j = r then M r i * (((1 / c : ℝ)) : ℂ) else M j i) *
      (Matrix.of fun j i => if j = r then M r i * (((1 / c : ℝ)) : ℂ) else M j i)ᴴ) a b =
      (if a = r then ((1 / c : ℝ) : ℂ) else 1) * (if b = r then ((1 / c : ℝ) : ℂ) else 1) * (M * Mᴴ) a b := by
    intro a b
    rw [mul_ct_apply, mul_ct_apply, Finset.mul_sum]
    refine Finset.sum_congr rfl fun i _ => ?_
    simp only [Matrix.of_apply]
    by_cases ha : a = r <;> by_cases hb : b = r
    · simp only [ha, hb, if_true, star_mul', RCLike.star_def, Complex.conj_ofReal]; ring
    · simp only [ha, hb, if_true, if_false]; ring
    · simp only [ha, hb, if_true, if_false, star_mul', RCLike.star_def, Complex.conj_ofReal]; ring
    · simp only [ha, hb, if_false]; ring
  refine ⟨_, rfl, ⟨⟨Matrix.of fun j i => if i = r then L j i * c else L j i, ⟨?_, ?_, ?_⟩, ?_⟩, ?_⟩, ?_⟩
  · intro i j hij
    simp only [Matrix.of_apply]
    split_ifs <;> simp [hL.lower i j hij]
  · intro i
    simp only [Matrix.of_apply]
    split_ifs <;> simp [hL.im i]
  · intro i
    simp only [Matrix.of_apply]
    split_ifs
    · simpa using mul_pos (hL.pos i) hp
    · exact hL.pos i
  · rw [hA]
    ext i j
    rw [Matrix.mul_apply, Matrix.mul_apply]
    refine Finset.sum_congr rfl fun k _ => ?_
    simp only [Matrix.of_apply]
    by_cases hk : k = r
    · simp only [hk, if_true]
      push_cast
      field_simp
    · simp only [hk, if_false]
  · intro a b ha
    rw [hMM, ho a b ha]
    have har : a ≠ r := fun e => by rw [e] at ha; exact lt_irrefl _ ha
    by_cases hab : a = b
    · rw [← hab, if_neg har, if_pos rfl]; ring
    · rw [if_neg hab, mul_zero]
  · rw [hMM, if_pos rfl, ← rowSq_eq, ← hsq]
    push_cast
    field_simp

theorem orthoRow_run {A M : Matrix (Fin N) (Fin N) ℂ} {r j : Fin N} (hrj : r < j) (hI : GsInv A r.val M) (h1 : (M * Mᴴ) r r = 1)
    (h2 : ∀ b : Fin N, r < b → b < j → (M * Mᴴ) r b = 0) :
    GsInv A r.val (orthoRow r j M) ∧ (orthoRow r j M * (orthoRow r j M)ᴴ) r r = 1 ∧
      ∀ b : Fin N, r < b → b.val < j.val + 1 → (orthoRow r j M * (orthoRow r j M)ᴴ) r b = 0 := by
  obtain ⟨⟨L, hL, hA⟩, ho⟩ := hI
  obtain ⟨d, hd⟩ : ∃ d, d = ∑ i, star (M r i) * M j i := ⟨_, rfl⟩
  have hd' : (M * Mᴴ) j r = d := by
    rw [mul_ct_apply, hd]
    exact Finset.sum_congr rfl fun i _ => mul_comm _ _
  have hd'' : (M * Mᴴ) r j = star d := by
    rw [← hd', mul_ct_apply, mul_ct_apply, star_sum]
    exact Finset.sum_congr rfl fun i _ => by rw [star_mul', star_star, mul_comm]
  have hM' : ∀ k i, orthoRow r j M k i = if k = j then M j i - d * M r i else M k i := by
    intro k i; unfold orthoRow; rw [Matrix.of_apply, hd]
  have hrow : ∀ a b : Fin N, a ≠ j → (orthoRow r j M * (orthoRow r j M)ᴴ) a b =
      if b = j then (M * Mᴴ) a j - star d * (M * Mᴴ) a r else (M * Mᴴ) a b := by
    intro a b ha
    simp only [mul_ct_apply, hM', if_neg ha]
    by_cases hb : b = j
    · simp only [hb, if_true, star_sub, star_mul', Finset.mul_sum, ← Finset.sum_sub_distrib]
      exact Finset.sum_congr rfl fun i _ => by ring
    · simp only [hb, if_false]
  have hrne : r ≠ j := hrj.ne
  refine ⟨⟨⟨Matrix.of fun a b => if b = r then L a r + L a j * d else L a b, ⟨?_, ?_, ?_⟩, ?_⟩, ?_⟩, ?_, ?_⟩
  · intro a b hab
    simp only [Matrix.of_apply]
    split_ifs with hb
    · rw [hb] at hab
      rw [hL.lower a r hab, hL.lower a j (hab.trans hrj)]
      ring
    · exact hL.lower a b hab
  · intro i
    simp only [Matrix.of_apply]
    split_ifs with hb
    · rw [hb, hL.lower r j hrj, zero_mul, add_zero]; exact hL.im r
    · exact hL.im i
  · intro i
    simp only [Matrix.of_apply]
    split_ifs with hb
    · rw [hb, hL.lower r j hrj, zero_mul, add_zero]; exact hL.pos r
    · exact hL.pos i
  · rw [hA]
    ext a b
    have e1 : ∀ k, (if k = r then L a r + L a j * d else L a k) * orthoRow r j M k b =
        L a k * M k b + ((if k = r then L a j * d * M r b else 0) - (if k = j then L a j * d * M r b else 0)) := by
      intro k
      rw [hM']
      by_cases hk : k = r
      · have : k ≠ j := fun e => hrne (hk.symm.trans e)
        rw [if_pos hk, if_neg this, if_pos hk, if_neg this, hk]; ring
      · by_cases hj : k = j
        · rw [if_neg hk, if_pos hj, if_neg hk, if_pos hj, hj]; ring
        · rw [if_neg hk, if_neg hj, if_neg hk, if_neg hj]; ring
    rw [Matrix.mul_apply, Matrix.mul_apply]
    simp only [Matrix.of_apply]
    rw [Finset.sum_congr rfl fun k _ => e1 k, Finset.sum_add_distrib, Finset.sum_sub_distrib]
    simp
  · intro a b ha
    have haj : a ≠ j := fun e => by rw [e] at ha; exact absurd ha (not_lt.2 (le_of_lt hrj))
    have har : a ≠ r := fun e => by rw [e] at ha; exact lt_irrefl _ ha
    rw [hrow a b haj, ho a r ha, if_neg har, mul_zero, sub_zero]
    split_ifs with h1 h2 h2
    · exact absurd (h2.trans h1) haj
    · rw [ho a j ha, if_neg haj]
    · rw [ho a b ha, if_pos h2]
    · rw [ho a b ha, if_neg h2]
  · rw [hrow r r hrne, if_neg hrne, h1]
  · intro b hb hbj
    rw [hrow r b hrne]
    split_ifs with h
    · rw [hd'', h1, mul_one, sub_self]
    · exact h2 b hb (lt_of_le_of_ne (Nat.lt_succ_iff.1 hbj) h)

theorem gs_row {A M : Matrix (Fin N) (Fin N) ℂ} {r : Fin N} (hI : GsInv A r.val M) (h0 : rowSq M r ≠ 0) :
    ∃ M', ((normalizeRow r M).bind fun M => forLoop N N (fun j M => some (orthoRow r j M)) (r.val + 1) M) = some M' ∧
      GsInv A (r.val + 1) M' := by
  obtain ⟨M1, e1, hI1, h1⟩ := normalizeRow_run hI h0
  obtain ⟨M2, e2, hI2, h2, h3⟩ := forLoop_run' (n := N) (hi := N)
    (fun t (M : Matrix (Fin N) (Fin N) ℂ) => GsInv A r.val M ∧ (M * Mᴴ) r r = 1 ∧ ∀ b : Fin N, r < b → b.val < t → (M * Mᴴ) r b = 0)
    (fun j M => some (orthoRow r j M)) le_rfl (r.val + 1)
    (fun j M hj _ ⟨k1, k2, k3⟩ => ⟨_, rfl, orthoRow_run (show r.val < j.val by omega) k1 k2 fun b hb hbj => k3 b hb hbj⟩)
    M1 r.isLt ⟨hI1, h1, fun b hb hbt => absurd hb (by rw [Fin.lt_def]; omega)⟩
  refine ⟨M2, by rw [e1, Option.bind_some]; exact e2, hI2.fac, ?_⟩
  intro a b ha
  by_cases har : a.val < r.val
  · exact hI2.orth a b har
  · have : a = r := Fin.ext (by omega)
    rw [this]
    rcases lt_trichotomy r b with h | h | h
    · rw [h3 b h b.isLt, if_neg h.ne]
    · rw [← h, h2, if_pos rfl]
    · have e := hI2.orth b r h
      rw [if_neg h.ne] at e
      rw [if_neg h.ne']
      have : (M2 * M2ᴴ) r b = star ((M2 * M2ᴴ) b r) := by
        rw [mul_ct_apply, mul_ct_apply, star_sum]
        exact Finset.sum_congr rfl fun i _ => by rw [star_mul', star_star, mul_comm]
      rw [this, e, star_zero]

theorem gs_start (A : Matrix (Fin N) (Fin N) ℂ) : GsInv A 0 A :=
  ⟨⟨1, PosLower.one, by rw [Matrix.one_mul]⟩, fun a b h => absurd h (Nat.not_lt_zero _)⟩

theorem gs_end {A M : Matrix (Fin N) (Fin N) ℂ} (h : GsInv A N M) : M * Mᴴ = 1 := by
  ext a b
  rw [h.orth a b a.isLt, Matrix.one_apply]

/-- C55. `make_unitary` of a regular matrix gives a unitary matrix whose rows are combinations of the rows up to the same
index, with positive coefficient of the row itself. This determines the result, see `C55_unique`. -/
theorem C55_make_unitary (A : Matrix (Fin N) (Fin N) ℂ) (hA : A.det ≠ 0) :
    ∃ U L, makeUnitary A = some U ∧ U * Uᴴ = 1 ∧ A = L * U ∧ (∀ i j, i < j → L i j = 0) ∧ ∀ i, (L i i).im = 0 ∧ 0 < (L i i).re := by
  obtain ⟨M, h1, h2⟩ := forLoop_run (n := N) (hi := N) (GsInv A)
    (fun r M => (normalizeRow r M).bind fun M => forLoop N N (fun j M => some (orthoRow r j M)) (r.val + 1) M) le_rfl
    (fun r M hr hI => gs_row hI (rowSq_ne (by
      obtain ⟨L, -, e⟩ := hI.fac
      intro e0
      rw [e, Matrix.det_mul, e0, mul_zero] at hA
      exact hA rfl) r)) 0 A (Nat.zero_le _) (gs_start A)
  obtain ⟨L, hL, e⟩ := h2.fac
  exact ⟨M, L, h1, gs_end h2, e, hL.lower, fun i => ⟨hL.im i, hL.pos i⟩⟩

/-- Partial correctness of a loop with an invariant of the index. -/
theorem forLoop_inv {S : Type} {n hi : ℕ} (P : ℕ → S → Prop) (f : Fin n → S → Option S) (hle : hi ≤ n)
    (hf : ∀ i s s', P i.val s → f i s = some s' → P (i.val + 1) s') :
    ∀ (d lo : ℕ), hi - lo ≤ d → lo ≤ hi → ∀ s s' : S, P lo s → forLoop n hi f lo s = some s' → P hi s' := by
  intro d
  induction d with
  | zero =>
    intro lo hd hlo s s' hP h
    rw [forLoop, dif_neg (by omega)] at h
    cases h
    rwa [show hi = lo by omega]
  | succ d ih =>
    intro lo hd hlo s s' hP h
    by_cases hc : lo < hi
    · rw [forLoop, dif_pos ⟨hc, by omega⟩] at h
      obtain ⟨s1, h1, h2⟩ := Option.bind_eq_some_iff.1 h
      exact ih (lo + 1) (by omega) (by omega) s1 s' (hf ⟨lo, by omega⟩ _ _ hP h1) h2
    · rw [forLoop, dif_neg (fun h => hc h.1)] at h
      cases h
      rwa [show hi = lo by omega]

theorem makeUnitary_some {A U : Matrix (Fin N) (Fin N) ℂ} (h : makeUnitary A = some U) : U * Uᴴ = 1 ∧ ∃ L, PosLower L ∧ A = L * U := by
  have := forLoop_inv (GsInv A) _ le_rfl (fun r M M' hI h => by
    by_cases h0 : rowSq M r = 0
    · rw [normalizeRow, if_pos h0, Option.bind_none] at h
      exact absurd h (by simp)
    · obtain ⟨M'', e, hI'⟩ := gs_row hI h0
      rw [e] at h
      cases h
      exact hI') _ 0 le_rfl (Nat.zero_le _) A U (gs_start A) h
  exact ⟨gs_end this, this.fac⟩

/-- C55. If the rows are linearly dependent a row is divided by zero. -/
theorem C55_make_unitary_singular (A : Matrix (Fin N) (Fin N) ℂ) (hA : A.det = 0) : makeUnitary A = none := by
  cases h : makeUnitary A with
  | none => rfl
  | some U =>
    exfalso
    obtain ⟨h1, L, hL, e⟩ := makeUnitary_some h
    have : U.det ≠ 0 := by
      intro e0
      have := congrArg Matrix.det h1
      rw [Matrix.det_mul, e0, zero_mul, Matrix.det_one] at this
      exact zero_ne_one this
    rw [e, Matrix.det_mul] at hA
    exact mul_ne_zero hL.det_ne this hA

theorem posLower_unitary {L : Matrix (Fin N) (Fin N) ℂ} (hL : PosLower L) (h : L * Lᴴ = 1) : L = 1 := by
  have hlt : ∀ i j, L i j = if i = j then 1 else 0 := by
    have key : ∀ k : ℕ, ∀ j i : Fin N, j.val = k → L i j = if i = j then 1 else 0 := by
      intro k
      induction k using Nat.strong_induction_on with
      | _ k ih =>
        intro j i hj
        -- the diagonal element
        have hrow : ∀ a : Fin N, (L * Lᴴ) a j = L a j * star (L j j) := by
          intro a
          rw [mul_ct_apply, Finset.sum_eq_single j]
          · intro b _ hb
            rcases lt_or_gt_of_ne hb with h | h
            · rw [ih b.val (hj ▸ h) b j rfl, if_neg h.ne', star_zero, mul_zero]
            · rw [hL.lower j b h, star_zero, mul_zero]
          · intro h; exact absurd (Finset.mem_univ _) h
        have hdd : star (L j j) = L j j := Complex.conj_eq_iff_im.2 (hL.im j)
        have hjj : L j j = 1 := by
          have := hrow j
          rw [h, Matrix.one_apply_eq, hdd] at this
          have hre := congrArg Complex.re this
          rw [Complex.one_re, Complex.mul_re, hL.im j] at hre
          apply Complex.ext
          · rw [Complex.one_re]; nlinarith [hL.pos j]
          · rw [hL.im j, Complex.one_im]
        by_cases hij : i = j
        · rw [if_pos hij, hij, hjj]
        · have := hrow i
          rw [h, Matrix.one_apply_ne hij, hdd, hjj, mul_one] at this
          rw [if_neg hij, this]
    intro i j
    exact key j.val j i rfl
  ext i j
  rw [hlt, Matrix.one_apply]

theorem ct_mul_of_mul_ct {U : Matrix (Fin N) (Fin N) ℂ} (h : U * Uᴴ = 1) : Uᴴ * U = 1 := mul_eq_one_comm.1 h

/-- Products and inverses of lower triangular matrices with positive diagonal. -/
theorem PosLower.mul {L K : Matrix (Fin N) (Fin N) ℂ} (hL : PosLower L) (hK : PosLower K) : PosLower (L * K) := by
  have hd : ∀ i, (L * K) i i = L i i * K i i := by
    intro i
    rw [Matrix.mul_apply, Finset.sum_eq_single i]
    · intro b _ hb
      rcases lt_or_gt_of_ne hb with h | h
      · rw [hK.lower b i h, mul_zero]
      · rw [hL.lower i b h, zero_mul]
    · intro h; exact absurd (Finset.mem_univ _) h
  refine ⟨?_, ?_, ?_⟩
  · intro i j hij
    rw [Matrix.mul_apply]
    refine Finset.sum_eq_zero fun k _ => ?_
    rcases lt_or_ge i k with h | h
    · rw [hL.lower i k h, zero_mul]
    · rw [hK.lower k j (lt_of_le_of_lt h hij), mul_zero]
  · intro i
    rw [hd, Complex.mul_im, hL.im, hK.im]; ring
  · intro i
    rw [hd, Complex.mul_re, hL.im, hK.im]
    have := mul_pos (hL.pos i) (hK.pos i)
    linarith

theorem PosLower.inv {L : Matrix (Fin N) (Fin N) ℂ} (hL : PosLower L) : ∃ K, PosLower K ∧ K * L = 1 := by
  have hu : IsUnit L.det := isUnit_iff_ne_zero.2 hL.det_ne
  have : Invertible L := Matrix.invertibleOfIsUnitDet L hu
  have hb : L.BlockTriangular OrderDual.toDual := fun i j h => hL.lower i j h
  have hb' := Matrix.blockTriangular_inv_of_blockTriangular hb
  have hKL : L⁻¹ * L = 1 := Matrix.nonsing_inv_mul L hu
  have hd : ∀ i, L⁻¹ i i * L i i = 1 := by
    intro i
    have := congrFun (congrFun hKL i) i
    rw [Matrix.mul_apply, Matrix.one_apply_eq, Finset.sum_eq_single i] at this
    · exact this
    · intro b _ hb
      rcases lt_or_gt_of_ne hb with h | h
      · rw [hL.lower b i h, mul_zero]
      · rw [hb' (show OrderDual.toDual b < OrderDual.toDual i from h), zero_mul]
    · intro h; exact absurd (Finset.mem_univ _) h
  have him : ∀ i, (L⁻¹ i i).im = 0 := by
    intro i
    have := congrArg Complex.im (hd i)
    rw [Complex.mul_im, hL.im, mul_zero, zero_add, Complex.one_im] at this
    exact (mul_eq_zero.1 this).resolve_right (hL.pos i).ne'
  refine ⟨L⁻¹, ⟨fun i j h => hb' (show OrderDual.toDual j < OrderDual.toDual i from h), him, ?_⟩, hKL⟩
  intro i
  have := congrArg Complex.re (hd i)
  rw [Complex.mul_re, hL.im, mul_zero, sub_zero, Complex.one_re] at this
  by_contra hneg
  nlinarith [hL.pos i]

theorem gs_unique {L L' U U' : Matrix (Fin N) (Fin N) ℂ} (hL : PosLower L) (hL' : PosLower L') (hU : U * Uᴴ = 1) (hU' : U' * U'ᴴ = 1)
    (h : L * U = L' * U') : U = U' := by
  obtain ⟨K, hK, hKL⟩ := hL.inv
  have h1 : U * U'ᴴ = K * L' := by
    have := congrArg (fun M => K * M * U'ᴴ) h
    rw [← Matrix.mul_assoc, hKL, Matrix.one_mul, Matrix.mul_assoc, Matrix.mul_assoc, hU', Matrix.mul_one] at this
    exact this
  have h2 : U * U'ᴴ = 1 := by
    apply posLower_unitary (h1 ▸ hK.mul hL')
    rw [Matrix.conjTranspose_mul, Matrix.conjTranspose_conjTranspose, Matrix.mul_assoc, ← Matrix.mul_assoc _ U', ct_mul_of_mul_ct hU',
      Matrix.one_mul, hU]
  have := congrArg (fun M => M * U') h2
  rwa [Matrix.mul_assoc, ct_mul_of_mul_ct hU', Matrix.mul_one, Matrix.one_mul] at this

/-- C55. The description of `C55_make_unitary` has only one solution: a unitary `U` with `A = L U`, `L` lower triangular with
positive diagonal, is what `make_unitary` returns. -/
theorem C55_unique (A U L : Matrix (Fin N) (Fin N) ℂ) (hU : U * Uᴴ = 1) (hA : A = L * U) (hl : ∀ i j, i < j → L i j = 0)
    (hp : ∀ i, (L i i).im = 0 ∧ 0 < (L i i).re) : makeUnitary A = some U := by
  have hL : PosLower L := ⟨hl, fun i => (hp i).1, fun i => (hp i).2⟩
  have hdet : A.det ≠ 0 := by
    rw [hA, Matrix.det_mul]
    refine mul_ne_zero hL.det_ne fun e0 => ?_
    have := congrArg Matrix.det hU
    rw [Matrix.det_mul, e0, zero_mul, Matrix.det_one] at this
    exact zero_ne_one this
  obtain ⟨U', L', h1, h2, h3, h4, h5⟩ := C55_make_unitary A hdet
  rw [h1, gs_unique ⟨h4, fun i => (h5 i).1, fun i => (h5 i).2⟩ hL h2 hU (h3.symm.trans hA)]

/-! ### The determinant -/

theorem fixDet_eq (hN : 0 < N) (M : Matrix (Fin N) (Fin N) ℂ) :
    fixDet M = some (Complex.exp (-(((M.det.arg / N : ℝ) : ℂ) * Complex.I)) • M) := by
  unfold fixDet
  rw [C51_det hN, Option.map_some]
  congr 1
  ext j i
  rw [Matrix.of_apply, Matrix.smul_apply, smul_eq_mul, mul_comm]
  congr 1
  rw [← neg_mul, ← Complex.ofReal_neg]
  generalize -(M.det.arg / N : ℝ) = t
  rw [Complex.exp_mul_I]
  apply Complex.ext
  · simp [Complex.cos_ofReal_re, Complex.sin_ofReal_im]
  · simp [Complex.sin_ofReal_re, Complex.cos_ofReal_im]

/-- C55. `fix_det` multiplies with a phase, and makes the determinant of any matrix real and not negative. -/
theorem C55_fix_det (hN : 0 < N) (M : Matrix (Fin N) (Fin N) ℂ) :
    ∃ z : ℂ, ‖z‖ = 1 ∧ fixDet M = some (z • M) ∧ (z • M).det = (‖M.det‖ : ℂ) := by
  refine ⟨_, ?_, fixDet_eq hN M, ?_⟩
  · rw [← neg_mul, ← Complex.ofReal_neg, Complex.norm_exp_ofReal_mul_I]
  · rw [Matrix.det_smul, Fintype.card_fin, ← Complex.exp_nat_mul]
    have hN' : (N : ℂ) ≠ 0 := Nat.cast_ne_zero.2 (by omega)
    have : (N : ℂ) * -(((M.det.arg / N : ℝ) : ℂ) * Complex.I) = -(M.det.arg * Complex.I) := by
      push_cast
      field_simp
    rw [this]
    have e := Complex.norm_mul_exp_arg_mul_I M.det
    generalize M.det.arg = t at e ⊢
    generalize ‖M.det‖ = x at e ⊢
    rw [← e, mul_left_comm, ← Complex.exp_add, neg_add_cancel, Complex.exp_zero, mul_one]

theorem norm_det_unitary {U : Matrix (Fin N) (Fin N) ℂ} (h : U * Uᴴ = 1) : ‖U.det‖ = 1 := by
  have := congrArg Matrix.det h
  rw [Matrix.det_mul, Matrix.det_conjTranspose, Matrix.det_one, RCLike.star_def, Complex.mul_conj, ← Complex.ofReal_one, Complex.ofReal_inj,
    Complex.normSq_eq_norm_sq] at this
  have h0 := norm_nonneg U.det
  nlinarith

/-- C55. `reunitarize` of a regular matrix gives an element of SU(N): the rows are orthonormalised in order and multiplied
with one phase. -/
theorem C55_reunitarize (hN : 0 < N) (A : Matrix (Fin N) (Fin N) ℂ) (hA : A.det ≠ 0) :
    ∃ U L, reunitarize A = some U ∧ U ∈ specialUnitaryGroup (Fin N) ℂ ∧ A = L * U ∧ (∀ i j, i < j → L i j = 0) ∧
      ∃ z : ℂ, ‖z‖ = 1 ∧ ∀ i, (L i i * z).im = 0 ∧ 0 < (L i i * z).re := by
  obtain ⟨U, L, h1, h2, h3, h4, h5⟩ := C55_make_unitary A hA
  obtain ⟨z, hz, e, hdet⟩ := C55_fix_det hN U
  have hzz : z * star z = 1 := by
    rw [RCLike.star_def, Complex.mul_conj, Complex.normSq_eq_norm_sq, hz]; norm_num
  refine ⟨z • U, star z • L, ?_, ?_, ?_, ?_, z, hz, ?_⟩
  · unfold reunitarize
    rw [h1, Option.bind_some, e]
  · rw [mem_specialUnitaryGroup_iff, mem_unitaryGroup_iff]
    refine ⟨?_, ?_⟩
    · rw [star_eq_conjTranspose, Matrix.conjTranspose_smul, Matrix.smul_mul, Matrix.mul_smul, smul_smul, hzz, one_smul, h2]
    · rw [hdet, norm_det_unitary h2]; norm_num
  · rw [Matrix.smul_mul, Matrix.mul_smul, smul_smul, mul_comm, hzz, one_smul, h3]
  · intro i j hij
    rw [Matrix.smul_apply, h4 i j hij, smul_zero]
  · intro i
    have : (star z • L) i i * z = L i i := by
      rw [Matrix.smul_apply, smul_eq_mul, mul_comm, ← mul_assoc, hzz, one_mul]
    rw [this]
    exact h5 i

/-- C55. Rows that are linearly dependent, as in the zero matrix, cannot be reunitarized. -/
theorem C55_reunitarize_singular (A : Matrix (Fin N) (Fin N) ℂ) (hA : A.det = 0) : reunitarize A = none := by
  unfold reunitarize
  rw [C55_make_unitary_singular A hA, Option.bind_none]

theorem su_mul_ct {U : Matrix (Fin N) (Fin N) ℂ} (h : U ∈ specialUnitaryGroup (Fin N) ℂ) : U * Uᴴ = 1 :=
  mem_unitaryGroup_iff.1 (mem_specialUnitaryGroup_iff.1 h).1

/-- C55. Matrices of the group are not changed, also if they were multiplied with a positive number. -/
theorem C55_reunitarize_fixes (hN : 0 < N) (U : Matrix (Fin N) (Fin N) ℂ) (hU : U ∈ specialUnitaryGroup (Fin N) ℂ) (c : ℝ) (hc : 0 < c) :
    reunitarize ((c : ℂ) • U) = some U := by
  unfold reunitarize
  rw [C55_unique ((c : ℂ) • U) U ((c : ℂ) • 1) (su_mul_ct hU) (by rw [Matrix.smul_mul, Matrix.one_mul])
    (fun i j h => by rw [Matrix.smul_apply, Matrix.one_apply_ne h.ne, smul_zero]) (fun i => by simp [hc]), Option.bind_some,
    fixDet_eq hN, (mem_specialUnitaryGroup_iff.1 hU).2]
  simp

/-- C55. `reunitarize` commutes with the multiplication by a group element from the right. -/
theorem C55_right_covariant (hN : 0 < N) (A V : Matrix (Fin N) (Fin N) ℂ) (hV : V ∈ specialUnitaryGroup (Fin N) ℂ) :
    reunitarize (A * V) = (reunitarize A).map (· * V) := by
  have hVd := (mem_specialUnitaryGroup_iff.1 hV).2
  by_cases hA : A.det = 0
  · rw [C55_reunitarize_singular A hA, C55_reunitarize_singular (A * V) (by rw [Matrix.det_mul, hA, zero_mul]), Option.map_none]
  · obtain ⟨U, L, h1, h2, h3, h4, h5⟩ := C55_make_unitary A hA
    unfold reunitarize
    rw [h1, C55_unique (A * V) (U * V) L ?_ (by rw [h3, Matrix.mul_assoc]) h4 h5, Option.bind_some, Option.bind_some, fixDet_eq hN,
      fixDet_eq hN, Matrix.det_mul, hVd, mul_one, Option.map_some, Matrix.smul_mul]
    rw [Matrix.conjTranspose_mul, Matrix.mul_assoc, ← Matrix.mul_assoc V, su_mul_ct hV, Matrix.one_mul, h2]

/-! ### Random matrices -/

/-- The matrix of `randomSU2` for a normalised vector. -/
def pauliMat (w : Fin 4 → ℝ) : Matrix (Fin 2) (Fin 2) ℂ := !![⟨w 0, w 3⟩, ⟨w 2, w 1⟩; ⟨-w 2, w 1⟩, ⟨w 0, -w 3⟩]

theorem pauliMat_mem {w : Fin 4 → ℝ} (h : ∑ i, w i ^ 2 = 1) : pauliMat w ∈ specialUnitaryGroup (Fin 2) ℂ := by
  rw [Fin.sum_univ_four] at h
  rw [mem_specialUnitaryGroup_iff, mem_unitaryGroup_iff]
  constructor
  · ext i j
    rw [star_eq_conjTranspose, mul_ct_apply, Fin.sum_univ_two]
    fin_cases i <;> fin_cases j <;> apply Complex.ext <;>
      simp [pauliMat, Complex.mul_re, Complex.mul_im] <;> nlinarith
  · rw [Matrix.det_fin_two]
    apply Complex.ext <;> simp [pauliMat, Complex.mul_re, Complex.mul_im] <;> nlinarith

theorem sumsq_pos {v : Fin 4 → ℝ} (hv : v ≠ 0) : 0 < ∑ i, v i ^ 2 := by
  obtain ⟨i, hi⟩ := Function.ne_iff.1 hv
  exact Finset.sum_pos' (fun i _ => sq_nonneg _) ⟨i, Finset.mem_univ _, by have : v i ≠ 0 := hi; positivity⟩

/-- C55. The random SU(2) matrix is in the group for every random vector except zero. -/
theorem C55_random_su2 (v : Fin 4 → ℝ) (hv : v ≠ 0) : ∃ U, randomSU2 v = some U ∧ U ∈ specialUnitaryGroup (Fin 2) ℂ := by
  have h0 : 0 < Real.sqrt (∑ i, v i ^ 2) := Real.sqrt_pos.2 (sumsq_pos hv)
  refine ⟨pauliMat fun i => v i / Real.sqrt (∑ i, v i ^ 2), ?_, pauliMat_mem ?_⟩
  · unfold randomSU2
    dsimp only
    rw [if_neg h0.ne']
    rfl
  · simp only [div_pow]
    rw [← Finset.sum_div, Real.sq_sqrt (sumsq_pos hv).le, div_self (sumsq_pos hv).ne']

/-- C55. The zero vector gives a division by zero. -/
theorem C55_random_su2_zero : randomSU2 0 = none := by
  unfold randomSU2
  simp

theorem pauliMat_surj {U : Matrix (Fin 2) (Fin 2) ℂ} (hU : U ∈ specialUnitaryGroup (Fin 2) ℂ) :
    ∃ w : Fin 4 → ℝ, ∑ i, w i ^ 2 = 1 ∧ pauliMat w = U := by
  have h1 := su_mul_ct hU
  have h2 := (mem_specialUnitaryGroup_iff.1 hU).2
  have h3 := ct_mul_of_mul_ct h1
  -- the inverse by the adjugate
  have hadj : Uᴴ = U.adjugate := by
    have : U * U.adjugate = 1 := by rw [Matrix.mul_adjugate, h2, one_smul]
    calc Uᴴ = Uᴴ * (U * U.adjugate) := by rw [this, Matrix.mul_one]
      _ = U.adjugate := by rw [← Matrix.mul_assoc, h3, Matrix.one_mul]
  rw [Matrix.adjugate_fin_two] at hadj
  have e11 : U 1 1 = star (U 0 0) := by simpa using (congrFun (congrFun hadj 0) 0).symm
  have e10 : U 1 0 = -star (U 0 1) := by
    have := congrFun (congrFun hadj 1) 0
    simp only [Matrix.conjTranspose_apply] at this
    rw [this]; simp
  rw [Matrix.det_fin_two, e11, e10] at h2
  refine ⟨![(U 0 0).re, (U 0 1).im, (U 0 1).re, (U 0 0).im], ?_, ?_⟩
  · have := congrArg Complex.re h2
    simp [Complex.mul_re] at this
    rw [Fin.sum_univ_four]
    simp
    nlinarith
  · ext i j
    fin_cases i <;> fin_cases j
    · simp [pauliMat]
    · simp [pauliMat]
    · simp only [pauliMat]
      apply Complex.ext <;> simp [e10]
    · apply Complex.ext <;> simp [pauliMat, e11]

/-- C55. Every element of SU(2) can occur. -/
theorem C55_random_su2_onto (U : Matrix (Fin 2) (Fin 2) ℂ) (hU : U ∈ specialUnitaryGroup (Fin 2) ℂ) :
    ∃ v, v ≠ 0 ∧ randomSU2 v = some U := by
  obtain ⟨w, h1, h2⟩ := pauliMat_surj hU
  refine ⟨w, fun e => ?_, ?_⟩
  · rw [e] at h1; simp at h1
  · unfold randomSU2
    dsimp only
    rw [h1, Real.sqrt_one, if_neg one_ne_zero]
    simp only [div_one]
    rw [← h2]
    rfl

theorem randomHit_run (gauss : ℕ → Fin 4 → ℝ) (hg : ∀ k, gauss k ≠ 0) : ∀ (l : List (Fin N × Fin N)), (∀ pq ∈ l, pq.1 ≠ pq.2) →
    ∀ s : Matrix (Fin N) (Fin N) ℂ × ℕ, s.1 ∈ specialUnitaryGroup (Fin N) ℂ →
    ∃ s', l.foldlM (fun s pq => (randomSU2 (gauss s.2)).map fun m2 => (multBy2x2Left s.1 pq.1 pq.2 m2, s.2 + 1)) s = some s' ∧
      s'.1 ∈ specialUnitaryGroup (Fin N) ℂ ∧ s'.2 = s.2 + l.length := by
  intro l
  induction l with
  | nil => intro _ s hs; exact ⟨s, rfl, hs, rfl⟩
  | cons pq l ih =>
    intro hl s hs
    obtain ⟨m, hm, hmem⟩ := C55_random_su2 (gauss s.2) (hg _)
    have hpq := hl pq List.mem_cons_self
    obtain ⟨s', h1, h2, h3⟩ := ih (fun x hx => hl x (List.mem_cons_of_mem _ hx)) (multBy2x2Left s.1 pq.1 pq.2 m, s.2 + 1) (by
      dsimp only
      rw [multBy2x2Left_eq _ _ _ hpq]
      exact mul_mem (embed_mem _ _ hpq m hmem) hs)
    refine ⟨s', ?_, h2, ?_⟩
    · rw [List.foldlM_cons, hm, Option.map_some]
      exact h1
    · rw [h3, List.length_cons]; dsimp only; omega

theorem reunitarize_su (hN : 0 < N) {U : Matrix (Fin N) (Fin N) ℂ} (hU : U ∈ specialUnitaryGroup (Fin N) ℂ) : reunitarize U = some U := by
  have := C55_reunitarize_fixes hN U hU 1 one_pos
  rwa [Complex.ofReal_one, one_smul] at this

theorem randomHits_run (hN : 0 < N) (gauss : ℕ → Fin 4 → ℝ) (hg : ∀ k, gauss k ≠ 0) : ∀ (left h : ℕ) (s : Matrix (Fin N) (Fin N) ℂ × ℕ),
    s.1 ∈ specialUnitaryGroup (Fin N) ℂ → ∃ s', randomHits gauss left h s = some s' ∧ s'.1 ∈ specialUnitaryGroup (Fin N) ℂ ∧
      s'.2 = s.2 + left * (subgroups N).length := by
  intro left
  induction left with
  | zero => intro h s hs; exact ⟨s, rfl, hs, by omega⟩
  | succ left ih =>
    intro h s hs
    obtain ⟨s1, e1, k1, k2⟩ := randomHit_run gauss hg (subgroups N) (fun pq h => subgroups_ne pq h) s hs
    obtain ⟨s2, e2, k3, k4⟩ := ih (h + 1) s1 k1
    refine ⟨s2, ?_, k3, by rw [k4, k2]; ring⟩
    rw [randomHits, show randomHit gauss s = some s1 from e1, Option.bind_some]
    have : (if h % 16 = 0 then (reunitarize s1.1).map fun M => (M, s1.2) else some s1) = some s1 := by
      rw [reunitarize_su hN k1, Option.map_some]
      split_ifs <;> rfl
    rw [this, Option.bind_some, e2]

/-- C55. `random` gives an element of SU(N) for all random vectors that are not zero, and uses a fixed number of them. -/
theorem C55_random (hN : 0 < N) (gauss : ℕ → Fin 4 → ℝ) (hg : ∀ k, gauss k ≠ 0) (nhits k : ℕ) :
    ∃ U : Matrix (Fin N) (Fin N) ℂ, randomSUN gauss nhits k = some (U, k + nhits * (N * (N - 1) / 2)) ∧ U ∈ specialUnitaryGroup (Fin N) ℂ := by
  obtain ⟨s, e, k1, k2⟩ := randomHits_run hN gauss hg nhits 1 (1, k) (one_mem _)
  have hlen : (subgroups N).length = N * (N - 1) / 2 := by
    have h := length_upperPairs (N := N)
    have : subgroups N = upperPairs N := rfl
    rw [this]
    omega
  refine ⟨s.1, ?_, k1⟩
  unfold randomSUN
  rw [e, Option.bind_some, reunitarize_su hN k1, Option.map_some, ← hlen, ← k2]
  split_ifs <;> rfl

/-! ### Every element can occur -/

/-- `U` is taken to `V` by the inverses of matrices of the subgroups in the list. -/
def Reach : List (Fin N × Fin N) → Matrix (Fin N) (Fin N) ℂ → Matrix (Fin N) (Fin N) ℂ → Prop
  | [], U, V => U = V
  | pq :: l, U, V => ∃ m ∈ specialUnitaryGroup (Fin 2) ℂ, Reach l (U * (embed pq.1 pq.2 m)ᴴ) V

theorem Reach.append {l1 l2 : List (Fin N × Fin N)} {U V W : Matrix (Fin N) (Fin N) ℂ} (h1 : Reach l1 U V) (h2 : Reach l2 V W) :
    Reach (l1 ++ l2) U W := by
  induction l1 generalizing U with
  | nil => rw [show U = V from h1]; exact h2
  | cons a l ih =>
    obtain ⟨m, hm, h⟩ := h1
    exact ⟨m, hm, ih h⟩

theorem su_ct_mem {U : Matrix (Fin N) (Fin N) ℂ} (hU : U ∈ specialUnitaryGroup (Fin N) ℂ) : Uᴴ ∈ specialUnitaryGroup (Fin N) ℂ := by
  obtain ⟨h1, h2⟩ := mem_specialUnitaryGroup_iff.1 hU
  refine mem_specialUnitaryGroup_iff.2 ⟨by rw [← star_eq_conjTranspose]; exact Unitary.star_mem h1, ?_⟩
  rw [Matrix.det_conjTranspose, h2, star_one]

theorem Reach.mem {l : List (Fin N × Fin N)} (hl : ∀ pq ∈ l, pq.1 ≠ pq.2) {U V : Matrix (Fin N) (Fin N) ℂ} (h : Reach l U V)
    (hU : U ∈ specialUnitaryGroup (Fin N) ℂ) : V ∈ specialUnitaryGroup (Fin N) ℂ := by
  induction l generalizing U with
  | nil => rw [← show U = V from h]; exact hU
  | cons a l ih =>
    obtain ⟨m, hm, h⟩ := h
    refine ih (fun x hx => hl x (List.mem_cons_of_mem _ hx)) h (mul_mem hU ?_)
    exact su_ct_mem (embed_mem _ _ (hl a List.mem_cons_self) m hm)

/-- Right multiplication with an embedded matrix. -/
theorem mul_embed_apply (U : Matrix (Fin N) (Fin N) ℂ) {p q : Fin N} (hpq : p ≠ q) (m : Matrix (Fin 2) (Fin 2) ℂ) (i k : Fin N) :
    (U * (embed p q m)ᴴ) i k = if k = p then U i p * star (m 0 0) + U i q * star (m 0 1)
      else if k = q then U i p * star (m 1 0) + U i q * star (m 1 1) else U i k := by
  have : (U * (embed p q m)ᴴ) = (multBy2x2Left Uᴴ p q m)ᴴ := by
    rw [multBy2x2Left_eq _ _ _ hpq, Matrix.conjTranspose_mul, Matrix.conjTranspose_conjTranspose]
  rw [this, Matrix.conjTranspose_apply]
  unfold multBy2x2Left
  dsimp only
  by_cases hp : k = p
  · have hq : k ≠ q := fun e => hpq (hp.symm.trans e)
    rw [if_neg hq, if_pos hp, if_pos hp]
    simp only [Matrix.conjTranspose_apply, star_add, star_mul', star_star]
    ring
  · by_cases hq : k = q
    · rw [if_pos hq, if_neg hp, if_pos hq]
      simp only [Matrix.conjTranspose_apply, star_add, star_mul', star_star]
      ring
    · rw [if_neg hq, if_neg hp, if_neg hp, if_neg hq, Matrix.conjTranspose_apply, star_star]

/-- One element of a row is made zero. -/
theorem zero_one (a b : ℂ) : ∃ m ∈ specialUnitaryGroup (Fin 2) ℂ, (∃ x : ℝ, 0 ≤ x ∧ a * star (m 0 0) + b * star (m 0 1) = x) ∧
    a * star (m 1 0) + b * star (m 1 1) = 0 := by
  by_cases h : Complex.normSq a + Complex.normSq b = 0
  · have ha : a = 0 := Complex.normSq_eq_zero.1 (by nlinarith [Complex.normSq_nonneg a, Complex.normSq_nonneg b])
    have hb : b = 0 := Complex.normSq_eq_zero.1 (by nlinarith [Complex.normSq_nonneg a, Complex.normSq_nonneg b])
    exact ⟨1, one_mem _, ⟨0, le_rfl, by rw [ha, hb]; simp⟩, by rw [ha, hb]; simp⟩
  · have hp : 0 < Complex.normSq a + Complex.normSq b :=
      lt_of_le_of_ne (add_nonneg (Complex.normSq_nonneg a) (Complex.normSq_nonneg b)) (Ne.symm h)
    obtain ⟨x, hx⟩ : ∃ x, x = Real.sqrt (Complex.normSq a + Complex.normSq b) := ⟨_, rfl⟩
    have hx0 : 0 < x := by rw [hx]; exact Real.sqrt_pos.2 hp
    have hxx : x * x = Complex.normSq a + Complex.normSq b := by rw [hx]; exact Real.mul_self_sqrt hp.le
    have hxc : (x : ℂ) ≠ 0 := Complex.ofReal_ne_zero.2 hx0.ne'
    have hxx' : (x : ℂ) * x = a * star a + b * star b := by
      rw [RCLike.star_def, Complex.mul_conj, Complex.mul_conj]
      exact_mod_cast hxx
    have hinv : (x : ℂ)⁻¹ * (x : ℂ)⁻¹ * (x * x) = 1 := by field_simp
    have hst : star ((x : ℂ)⁻¹) = (x : ℂ)⁻¹ := by
      rw [RCLike.star_def, map_inv₀, Complex.conj_ofReal]
    refine ⟨!![a * (x : ℂ)⁻¹, b * (x : ℂ)⁻¹; -star b * (x : ℂ)⁻¹, star a * (x : ℂ)⁻¹], ?_, ⟨x, hx0.le, ?_⟩, ?_⟩
    · rw [mem_specialUnitaryGroup_iff, mem_unitaryGroup_iff]
      constructor
      · ext i j
        rw [star_eq_conjTranspose, mul_ct_apply, Fin.sum_univ_two]
        fin_cases i <;> fin_cases j
        · show a * (x : ℂ)⁻¹ * star (a * (x : ℂ)⁻¹) + b * (x : ℂ)⁻¹ * star (b * (x : ℂ)⁻¹) = 1
          rw [star_mul', star_mul', hst, ← hinv, hxx']; ring
        · show a * (x : ℂ)⁻¹ * star (-star b * (x : ℂ)⁻¹) + b * (x : ℂ)⁻¹ * star (star a * (x : ℂ)⁻¹) = 0
          rw [star_mul', star_mul', hst, star_neg, star_star, star_star]; ring
        · show -star b * (x : ℂ)⁻¹ * star (a * (x : ℂ)⁻¹) + star a * (x : ℂ)⁻¹ * star (b * (x : ℂ)⁻¹) = 0
          rw [star_mul', star_mul', hst]; ring
        · show -star b * (x : ℂ)⁻¹ * star (-star b * (x : ℂ)⁻¹) + star a * (x : ℂ)⁻¹ * star (star a * (x : ℂ)⁻¹) = 1
          rw [star_mul', star_mul', hst, star_neg, star_star, star_star, ← hinv, hxx']; ring
      · rw [Matrix.det_fin_two]
        show a * (x : ℂ)⁻¹ * (star a * (x : ℂ)⁻¹) - b * (x : ℂ)⁻¹ * (-star b * (x : ℂ)⁻¹) = 1
        rw [← hinv, hxx']; ring
    · show a * star (a * (x : ℂ)⁻¹) + b * star (b * (x : ℂ)⁻¹) = x
      rw [star_mul', star_mul', hst]
      have : a * (star a * (x : ℂ)⁻¹) + b * (star b * (x : ℂ)⁻¹) = (a * star a + b * star b) * (x : ℂ)⁻¹ := by ring
      rw [this, ← hxx']
      field_simp
    · show a * star (-star b * (x : ℂ)⁻¹) + b * star (star a * (x : ℂ)⁻¹) = 0
      rw [star_mul', star_mul', hst, star_neg, star_star, star_star]
      ring

/-- A row is brought to the form `(0, …, x, 0, …)`. -/
theorem reach_row (p : Fin N) : ∀ (l : List (Fin N)), (∀ q ∈ l, q ≠ p) → ∀ U : Matrix (Fin N) (Fin N) ℂ, ∃ V, Reach (l.map fun q => (p, q)) U V ∧
    (∀ q ∈ l, V p q = 0) ∧ (∀ k, k ∉ l → k ≠ p → V p k = U p k) ∧ (l ≠ [] → ∃ x : ℝ, 0 ≤ x ∧ V p p = x) ∧
    (∀ i, U i p = 0 → (∀ q ∈ l, U i q = 0) → ∀ k, V i k = U i k) := by
  intro l
  induction l using List.reverseRecOn with
  | nil => intro _ U; exact ⟨U, rfl, by simp, fun _ _ _ => rfl, fun h => absurd rfl h, fun _ _ _ _ => rfl⟩
  | append_singleton l q ih =>
    intro hl U
    obtain ⟨V, h1, h2, h3, h4, h5⟩ := ih (fun x hx => hl x (List.mem_append_left _ hx)) U
    have hqp : q ≠ p := hl q (by simp)
    obtain ⟨m, hm, hx, hz⟩ := zero_one (V p p) (V p q)
    have hW := mul_embed_apply V hqp.symm m
    refine ⟨V * (embed p q m)ᴴ, ?_, ?_, ?_, ?_, ?_⟩
    · rw [List.map_append]
      exact h1.append ⟨m, hm, rfl⟩
    · intro k hk
      rw [hW]
      by_cases hkq : k = q
      · rw [if_neg (hkq ▸ hqp), if_pos hkq, hz]
      · have hkl : k ∈ l := by simpa [hkq] using hk
        rw [if_neg (hl k hk), if_neg hkq, h2 k hkl]
    · intro k hk hkp
      have hkq : k ≠ q := fun e => hk (by rw [e]; simp)
      rw [hW, if_neg hkp, if_neg hkq, h3 k (fun h => hk (List.mem_append_left _ h)) hkp]
    · intro _
      rw [hW, if_pos rfl]
      exact hx
    · intro i hi hil k
      have e := h5 i hi fun x hx => hil x (List.mem_append_left _ hx)
      rw [hW, e, e, e, hi, hil q (by simp)]
      split_ifs with h h'
      · rw [h, hi]; ring
      · rw [h', hil q (by simp)]; ring
      · rfl

/-- The rows before `t` are those of the unit matrix. -/
theorem reach_all : ∀ (d t : ℕ), N - t = d → ∀ U : Matrix (Fin N) (Fin N) ℂ, U ∈ specialUnitaryGroup (Fin N) ℂ →
    (∀ i j : Fin N, i.val < t → U i j = if i = j then 1 else 0) →
    Reach (((List.finRange N).drop t).flatMap fun a => ((List.finRange N).filter fun b => a < b).map fun b => (a, b)) U 1 := by
  intro d
  induction d with
  | zero =>
    intro t ht U hU hrow
    rw [List.drop_eq_nil_of_le (by rw [List.length_finRange]; omega), List.flatMap_nil]
    show U = 1
    ext i j
    rw [hrow i j (by omega), Matrix.one_apply]
  | succ d ih =>
    intro t ht U hU hrow
    have htN : t < N := by omega
    rw [List.drop_eq_getElem_cons (by rw [List.length_finRange]; exact htN), List.flatMap_cons, List.getElem_finRange]
    obtain ⟨p, hp⟩ : ∃ p : Fin N, p = Fin.cast (by simp) (⟨t, by rw [List.length_finRange]; exact htN⟩ : Fin (List.finRange N).length) := ⟨_, rfl⟩
    rw [← hp]
    have hpt : p.val = t := by rw [hp]; rfl
    have hmem : ∀ q, q ∈ (List.finRange N).filter (fun b => p < b) ↔ p < q := by intro q; simp
    obtain ⟨V, h1, h2, h3, h4, h5⟩ := reach_row p ((List.finRange N).filter fun b => p < b) (fun q hq => ((hmem q).1 hq).ne') U
    have hV : V ∈ specialUnitaryGroup (Fin N) ℂ := by
      refine h1.mem ?_ hU
      intro pq hpq
      obtain ⟨q, hq, rfl⟩ := List.mem_map.1 hpq
      exact ((hmem q).1 hq).ne
    refine h1.append (ih (t + 1) (by omega) V hV ?_)
    have hprev : ∀ i j : Fin N, i.val < t → V i j = if i = j then 1 else 0 := by
      intro i j hi
      have hip : i ≠ p := fun e => by rw [e, hpt] at hi; exact lt_irrefl _ hi
      rw [h5 i, hrow i j hi]
      · rw [hrow i p hi, if_neg hip]
      · intro q hq
        have : p.val < q.val := (hmem q).1 hq
        rw [hrow i q hi, if_neg fun e => by rw [e] at hi; omega]
    have hVV := su_mul_ct hV
    have hlow : ∀ j : Fin N, j.val < t → V p j = 0 := by
      intro j hj
      have := congrFun (congrFun hVV p) j
      rw [mul_ct_apply, Matrix.one_apply_ne (fun e => by rw [← e, hpt] at hj; exact lt_irrefl _ hj), Finset.sum_eq_single j] at this
      · rwa [hprev j j hj, if_pos rfl, star_one, mul_one] at this
      · intro b _ hb
        rw [hprev j b hj, if_neg hb.symm, star_zero, mul_zero]
      · intro h; exact absurd (Finset.mem_univ _) h
    have hoff : ∀ j : Fin N, j ≠ p → V p j = 0 := by
      intro j hj
      rcases lt_or_gt_of_ne hj with h | h
      · exact hlow j (by rw [← hpt]; exact h)
      · exact h2 j ((hmem j).2 h)
    have hnorm : V p p * star (V p p) = 1 := by
      have := congrFun (congrFun hVV p) p
      rw [mul_ct_apply, Matrix.one_apply_eq, Finset.sum_eq_single p] at this
      · exact this
      · intro b _ hb; rw [hoff b hb, zero_mul]
      · intro h; exact absurd (Finset.mem_univ _) h
    have hpp : V p p = 1 := by
      by_cases hlast : t + 1 < N
      · obtain ⟨x, hx0, hx⟩ := h4 (List.ne_nil_of_mem ((hmem ⟨t + 1, hlast⟩).2 (by rw [Fin.lt_def, hpt]; simp)))
        rw [hx, RCLike.star_def, Complex.conj_ofReal, ← Complex.ofReal_mul, ← Complex.ofReal_one, Complex.ofReal_inj] at hnorm
        rw [hx, ← Complex.ofReal_one, Complex.ofReal_inj]
        nlinarith
      · have hdet := (mem_specialUnitaryGroup_iff.1 hV).2
        rw [Matrix.det_of_isLowerTriangular V ?_, Finset.prod_eq_single p] at hdet
        · exact hdet
        · intro b _ hb
          rw [hprev b b ?_, if_pos rfl]
          have := b.isLt
          have : b.val ≠ p.val := fun e => hb (Fin.ext e)
          omega
        · intro h; exact absurd (Finset.mem_univ _) h
        · intro i j hij
          have hij' : i < j := hij
          have : i.val < j.val := hij'
          have := j.isLt
          rw [hprev i j (by omega), if_neg hij'.ne]
    intro i j hi
    by_cases hit : i.val < t
    · exact hprev i j hit
    · have hip : i = p := Fin.ext (by omega)
      rw [hip]
      by_cases hj : j = p
      · rw [hj, if_pos rfl, hpp]
      · rw [hoff j hj, if_neg (Ne.symm hj)]

/-- A stream of random vectors for a list of matrices. -/
theorem reach_stream : ∀ (l : List (Fin N × Fin N)), (∀ pq ∈ l, pq.1 ≠ pq.2) → ∀ (U M : Matrix (Fin N) (Fin N) ℂ) (k : ℕ), Reach l U 1 →
    ∃ vs : ℕ → Fin 4 → ℝ, (∀ i, vs i ≠ 0) ∧ ∀ gauss : ℕ → Fin 4 → ℝ, (∀ i, i < l.length → gauss (k + i) = vs i) →
      l.foldlM (fun s pq => (randomSU2 (gauss s.2)).map fun m2 => (multBy2x2Left s.1 pq.1 pq.2 m2, s.2 + 1)) (M, k) =
        some (U * M, k + l.length) := by
  intro l
  induction l with
  | nil =>
    intro _ U M k h
    refine ⟨fun _ _ => 1, fun i e => absurd (congrFun e 0) one_ne_zero, fun gauss _ => ?_⟩
    rw [show U = 1 from h, Matrix.one_mul]
    rfl
  | cons pq l ih =>
    rintro hl U M k ⟨m, hm, h⟩
    have hpq := hl pq List.mem_cons_self
    obtain ⟨v, hv0, hv⟩ := C55_random_su2_onto m hm
    obtain ⟨vs, h0, hvs⟩ := ih (fun x hx => hl x (List.mem_cons_of_mem _ hx)) _ (multBy2x2Left M pq.1 pq.2 m) (k + 1) h
    refine ⟨fun i => Nat.casesOn i v vs, fun i => ?_, fun gauss hg => ?_⟩
    · cases i with
      | zero => exact hv0
      | succ i => exact h0 i
    · have e0 : gauss k = v := hg 0 (Nat.succ_pos _)
      rw [List.foldlM_cons, e0, hv, Option.map_some]
      refine (hvs gauss fun i hi => ?_).trans ?_
      · have := hg (i + 1) (Nat.succ_lt_succ hi)
        rw [show k + 1 + i = k + (i + 1) by omega]
        exact this
      · rw [multBy2x2Left_eq _ _ _ hpq, Matrix.mul_assoc, ← Matrix.mul_assoc (embed pq.1 pq.2 m)ᴴ,
          ct_mul_of_mul_ct (su_mul_ct (embed_mem _ _ hpq m hm)), Matrix.one_mul, List.length_cons]
        congr 2
        omega

/-- The random vector of the unit matrix. -/
def unitVec : Fin 4 → ℝ := ![1, 0, 0, 0]

theorem randomSU2_unit : randomSU2 unitVec = some 1 := by
  have : pauliMat unitVec = 1 := by
    ext i j
    fin_cases i <;> fin_cases j <;> apply Complex.ext <;> simp [pauliMat, unitVec]
  unfold randomSU2
  have h1 : ∑ i, unitVec i ^ 2 = 1 := by rw [Fin.sum_univ_four]; simp [unitVec]
  dsimp only
  rw [h1, Real.sqrt_one, if_neg one_ne_zero]
  simp only [div_one]
  rw [← this]
  rfl

theorem hit_unit (gauss : ℕ → Fin 4 → ℝ) : ∀ (l : List (Fin N × Fin N)), (∀ pq ∈ l, pq.1 ≠ pq.2) → ∀ (M : Matrix (Fin N) (Fin N) ℂ) (k : ℕ),
    (∀ i, k ≤ i → gauss i = unitVec) →
    l.foldlM (fun s pq => (randomSU2 (gauss s.2)).map fun m2 => (multBy2x2Left s.1 pq.1 pq.2 m2, s.2 + 1)) (M, k) = some (M, k + l.length) := by
  intro l
  induction l with
  | nil => intro _ M k _; rfl
  | cons pq l ih =>
    intro hl M k hg
    rw [List.foldlM_cons, hg k le_rfl, randomSU2_unit, Option.map_some]
    rw [multBy2x2Left_eq _ _ _ (hl pq List.mem_cons_self), embed_one, Matrix.one_mul]
    refine (ih (fun x hx => hl x (List.mem_cons_of_mem _ hx)) M (k + 1) fun i hi => hg i (by omega)).trans ?_
    rw [List.length_cons]
    congr 2
    omega

theorem hits_unit (hN : 0 < N) (gauss : ℕ → Fin 4 → ℝ) {U : Matrix (Fin N) (Fin N) ℂ} (hU : U ∈ specialUnitaryGroup (Fin N) ℂ) :
    ∀ (left h k : ℕ), (∀ i, k ≤ i → gauss i = unitVec) → ∃ k', randomHits gauss left h (U, k) = some (U, k') := by
  intro left
  induction left with
  | zero => intro h k _; exact ⟨k, rfl⟩
  | succ left ih =>
    intro h k hg
    obtain ⟨k', e⟩ := ih (h + 1) (k + (subgroups N).length) fun i hi => hg i (by omega)
    refine ⟨k', ?_⟩
    rw [randomHits, show randomHit gauss (U, k) = some (U, k + (subgroups N).length) from
      hit_unit gauss (subgroups N) (fun pq h => subgroups_ne pq h) U k hg, Option.bind_some]
    have : (if h % 16 = 0 then (reunitarize U).map fun M => (M, k + (subgroups N).length) else some (U, k + (subgroups N).length)) =
        some (U, k + (subgroups N).length) := by
      rw [reunitarize_su hN hU, Option.map_some]
      split_ifs <;> rfl
    rw [this, Option.bind_some, e]

/-- C55. Every element of SU(N) can occur, with one hit already: the products of one matrix of each subgroup in the order of
the loops are the whole group. -/
theorem C55_random_onto (hN : 0 < N) (U : Matrix (Fin N) (Fin N) ℂ) (hU : U ∈ specialUnitaryGroup (Fin N) ℂ) (nhits : ℕ) (hh : 1 ≤ nhits) :
    ∃ gauss : ℕ → Fin 4 → ℝ, (∀ k, gauss k ≠ 0) ∧ ∃ k', randomSUN gauss nhits 0 = some (U, k') := by
  have hr : Reach (subgroups N) U 1 := reach_all (N := N) N 0 (by omega) U hU fun i j h => absurd h (Nat.not_lt_zero _)
  obtain ⟨vs, h0, hvs⟩ := reach_stream (subgroups N) (fun pq h => subgroups_ne pq h) U 1 0 hr
  have hu0 : unitVec ≠ 0 := fun e => by
    have := congrFun e 0
    simp [unitVec] at this
  obtain ⟨gauss, hgd⟩ : ∃ gauss : ℕ → Fin 4 → ℝ, gauss = fun i => if i < (subgroups N).length then vs i else unitVec := ⟨_, rfl⟩
  have e1 : randomHit gauss ((1 : Matrix (Fin N) (Fin N) ℂ), 0) = some (U, (subgroups N).length) := by
    have := hvs gauss fun i hi => by rw [hgd, Nat.zero_add]; exact if_pos hi
    rwa [Matrix.mul_one, Nat.zero_add] at this
  obtain ⟨k', e2⟩ := hits_unit hN gauss hU (nhits - 1) 2 (subgroups N).length fun i hi => by rw [hgd]; exact if_neg (by omega)
  refine ⟨gauss, fun k => ?_, k', ?_⟩
  · rw [hgd]; dsimp only; split_ifs
    · exact h0 k
    · exact hu0
  · obtain ⟨n', rfl⟩ : ∃ n', nhits = n' + 1 := ⟨nhits - 1, by omega⟩
    have e3 : randomHits gauss (n' + 1) 1 ((1 : Matrix (Fin N) (Fin N) ℂ), 0) = some (U, k') := by
      rw [randomHits, e1, Option.bind_some, if_neg (by norm_num), Option.bind_some]
      exact e2
    unfold randomSUN
    rw [e3, Option.bind_some, reunitarize_su hN hU, Option.map_some]
    split_ifs <;> rfl

/-- The matrices of `C55_not_left_covariant`. -/
def leftA : Matrix (Fin 2) (Fin 2) ℂ := !![1, 1; 0, 1]
@[inherit_doc leftA] def leftV : Matrix (Fin 2) (Fin 2) ℂ := !![0, 1; -1, 0]

theorem leftV_mem : leftV ∈ specialUnitaryGroup (Fin 2) ℂ := by
  rw [mem_specialUnitaryGroup_iff, mem_unitaryGroup_iff]
  constructor
  · ext i j
    rw [star_eq_conjTranspose, mul_ct_apply, Fin.sum_univ_two]
    fin_cases i <;> fin_cases j <;> simp [leftV]
  · rw [Matrix.det_fin_two]; simp [leftV]

/-- C55. `reunitarize` does not commute with the multiplication by a group element from the left: it is not gauge covariant
for matrices outside the group. -/
theorem C55_not_left_covariant : ∃ A V : Matrix (Fin 2) (Fin 2) ℂ, A.det ≠ 0 ∧ V ∈ specialUnitaryGroup (Fin 2) ℂ ∧
    reunitarize (V * A) ≠ (reunitarize A).map (V * ·) := by
  have hA : leftA.det ≠ 0 := by rw [Matrix.det_fin_two]; simp [leftA]
  refine ⟨leftA, leftV, hA, leftV_mem, ?_⟩
  have h1 : reunitarize (leftV * leftA) = some leftV := by
    unfold reunitarize
    rw [C55_unique (leftV * leftA) leftV !![1, 0; -1, 1] (su_mul_ct leftV_mem) ?_ ?_ ?_, Option.bind_some, fixDet_eq (by norm_num),
      (mem_specialUnitaryGroup_iff.1 leftV_mem).2]
    · simp
    · ext i j
      rw [Matrix.mul_apply, Matrix.mul_apply, Fin.sum_univ_two, Fin.sum_univ_two]
      fin_cases i <;> fin_cases j <;> simp [leftV, leftA]
    · intro i j hij
      fin_cases i <;> fin_cases j <;> simp at hij ⊢
    · intro i
      fin_cases i <;> simp
  obtain ⟨U, L, e, hU, hLU, hL, -⟩ := C55_reunitarize (by norm_num) leftA hA
  rw [h1, e, Option.map_some]
  intro h
  have h2 : leftV = leftV * U := Option.some.inj h
  have h3 : U = 1 := by
    have := congrArg (fun M => leftVᴴ * M) h2
    rw [← Matrix.mul_assoc, ct_mul_of_mul_ct (su_mul_ct leftV_mem), Matrix.one_mul] at this
    exact this.symm
  rw [h3, Matrix.mul_one] at hLU
  have := hL 0 1 (by decide)
  rw [← hLU] at this
  simp [leftA] at this

/-! ### Examples -/

/-- A regular matrix that is not unitary. -/
example : ∃ U, reunitarize leftA = some U ∧ U ∈ specialUnitaryGroup (Fin 2) ℂ := by
  obtain ⟨U, -, h1, h2, -⟩ := C55_reunitarize (N := 2) (by norm_num) leftA (by rw [Matrix.det_fin_two]; simp [leftA])
  exact ⟨U, h1, h2⟩

/-- Twice a group element. -/
example : reunitarize (((2 : ℝ) : ℂ) • leftV) = some leftV := C55_reunitarize_fixes (by norm_num) leftV leftV_mem 2 (by norm_num)

/-- Random vectors that are not zero. -/
example : ∃ U : Matrix (Fin 3) (Fin 3) ℂ, randomSUN (fun k => ![1, k, 0, -1]) 17 5 = some (U, 56) ∧ U ∈ specialUnitaryGroup (Fin 3) ℂ :=
  C55_random (N := 3) (by norm_num) _ (fun k e => by have := congrFun e 0; simp at this) 17 5

end Hila
