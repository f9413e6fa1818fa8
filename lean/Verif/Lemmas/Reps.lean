import Verif.Model.RepsSpec
import Verif.Props.SUN
import Verif.Lemmas.Stagg
import Verif.Lemmas.RealTimeEnergy
import Verif.Lemmas.GradFlow

/-!
# Bases of matrices and the representations built from them
-/

namespace Hila

open Matrix

variable {N : ℕ}

theorem projAntiherm_eq (M : Mat N) : projAntiherm M = algPart M := rfl

/-! ### Generators of su(N) -/

/-- Traceless antihermitean matrices are the real combinations of `i T a`. -/
theorem su_complete {T : ℕ → Mat N} (hT : IsSuBasis T) (hN : 0 < N) {A : Mat N} (hA : Aᴴ = -A) (ht : A.trace = 0) :
    A = ∑ a : Fin (N * N - 1), (suCoord T a A : ℂ) • (Complex.I • T a) := by
  have hTa : ∀ a : Fin (N * N - 1), Complex.I • T a = algMat (fun l => coef (genAt N l.val) (Complex.I • T a)) := by
    intro a
    rw [algMat_coef hN, algPart_self]
    · rw [conjTranspose_smul, hT.herm a a.isLt, Complex.star_def, Complex.conj_I, neg_smul]
    · rw [trace_smul, hT.traceless a a.isLt, smul_zero]
  let M : Matrix (Fin (N * N - 1)) (Fin (N * N - 1)) ℝ := Matrix.of fun a l => coef (genAt N l.val) (Complex.I • T a)
  have hdot : ∀ (v w : Alg N), coef (algMat v) (algMat w) = ∑ l, v l * w l := coef_algPart_dot hN
  have hM : M * Mᵀ = 1 := by
    ext a b
    rw [mul_apply]
    have h1 : ∑ l, M a l * Mᵀ l b = coef (Complex.I • T a) (Complex.I • T b) := by
      rw [hTa a, hTa b, hdot]
      rfl
    rw [h1]
    unfold coef
    rw [conjTranspose_smul, hT.herm a a.isLt, Complex.star_def, Complex.conj_I, smul_mul_smul_comm, trace_smul, hT.orthonormal a a.isLt b b.isLt]
    by_cases hab : a = b
    · subst hab; simp
    · have : a.val ≠ b.val := fun h => hab (Fin.ext h)
      simp [this, hab]
  have hM' : Mᵀ * M = 1 := mul_eq_one_comm.1 hM
  have hAe : A = algMat (fun l => coef (genAt N l.val) A) := by rw [algMat_coef hN, algPart_self A hA ht]
  set c : Alg N := fun l => coef (genAt N l.val) A with hc
  have hco : ∀ a : Fin (N * N - 1), suCoord T a A = (M.mulVec c) a := by
    intro a
    have h1 : suCoord T a A = coef (Complex.I • T a) A := rfl
    rw [h1, hTa a, hAe, hdot]
    rfl
  have hsum : ∑ a : Fin (N * N - 1), (suCoord T a A : ℂ) • (Complex.I • T a) = algMat (Mᵀ.mulVec (M.mulVec c)) := by
    have h2 : ∀ a : Fin (N * N - 1), (suCoord T a A : ℂ) • (Complex.I • T a) = ∑ l, (((M.mulVec c) a * M a l : ℝ) : ℂ) • genAt N l.val := by
      intro a
      rw [hco, hTa a]
      unfold algMat
      rw [Finset.smul_sum]
      refine Finset.sum_congr rfl fun l _ => ?_
      rw [smul_smul, Complex.ofReal_mul]
      rfl
    rw [Finset.sum_congr rfl fun a _ => h2 a, Finset.sum_comm]
    unfold algMat
    refine Finset.sum_congr rfl fun l _ => ?_
    rw [← Finset.sum_smul]
    congr 1
    unfold mulVec dotProduct
    rw [Complex.ofReal_sum]
    refine Finset.sum_congr rfl fun a _ => ?_
    rw [mul_comm]
    rfl
  rw [hsum, mulVec_mulVec, hM', one_mulVec]
  exact hAe

theorem foldl_range_add {M : Type} [AddCommMonoid M] (f : ℕ → M) (k : ℕ) : (List.range k).foldl (fun t e => t + f e) 0 = ∑ g ∈ Finset.range k, f g := by
  induction k with
  | zero => simp
  | succ k ih => rw [List.range_succ, List.foldl_append, ih, Finset.sum_range_succ]; rfl

/-- The scalar product of a projected force with a matrix. -/
theorem force_pair {T : ℕ → Mat N} (hT : IsSuBasis T) (k : ℕ) (hk : k ≤ N * N - 1) (C : ℕ → ℝ) (s : ℝ) (A : Mat N) :
    (A * projAntiherm ((⟨0, s⟩ : ℂ) • (List.range k).foldl (fun f g => f + (C g : ℂ) • T g) 0)).trace.re = -(s / 2) * ∑ g ∈ Finset.range k, C g * suCoord T g A := by
  rw [foldl_range_add (fun g => (C g : ℂ) • T g), projAntiherm_eq, algPart_self]
  · rw [Finset.smul_sum, Finset.mul_sum, trace_sum, Complex.re_sum, Finset.mul_sum]
    refine Finset.sum_congr rfl fun g hg => ?_
    unfold suCoord
    rw [conjTranspose_smul, hT.herm g (lt_of_lt_of_le (Finset.mem_range.1 hg) hk), smul_mul_assoc, mul_smul_comm, mul_smul_comm, trace_smul, trace_smul, trace_smul,
      trace_mul_comm A, Complex.star_def, Complex.conj_I]
    simp only [smul_eq_mul, Complex.mul_re, Complex.ofReal_re, Complex.ofReal_im, Complex.neg_re, Complex.neg_im, Complex.I_re, Complex.I_im, Complex.mul_im]
    ring
  · rw [conjTranspose_smul, conjTranspose_sum, ← neg_smul, Finset.smul_sum, Finset.smul_sum]
    refine Finset.sum_congr rfl fun g hg => ?_
    rw [conjTranspose_smul, hT.herm g (lt_of_lt_of_le (Finset.mem_range.1 hg) hk)]
    congr 1
    · apply Complex.ext <;> simp
    · rw [Complex.star_def, Complex.conj_ofReal]
  · rw [trace_smul, trace_sum, Finset.sum_eq_zero, smul_zero]
    intro g hg
    rw [trace_smul, hT.traceless g (lt_of_lt_of_le (Finset.mem_range.1 hg) hk), smul_zero]

/-! ### Bases of the antisymmetric and the symmetric matrices -/

theorem zip_fold {α β : Type} (f : β → α → β) (l : List α) (s g : ℕ) (M : β) :
    (l.zipIdx s).foldl (fun M p => if g = p.2 then f M p.1 else M) M = if h : s ≤ g ∧ g - s < l.length then f M (l[g - s]'h.2) else M := by
  induction l generalizing s M with
  | nil => simp
  | cons a l ih =>
    rw [List.zipIdx_cons, List.foldl_cons]
    by_cases h : g = s
    · subst h
      rw [if_pos rfl, ih, dif_neg (by omega), dif_pos (by simp)]
      simp
    · rw [if_neg h, ih]
      by_cases h2 : s ≤ g ∧ g - s < (a :: l).length
      · have h3 : s + 1 ≤ g ∧ g - (s + 1) < l.length := by
          have := h2.2
          rw [List.length_cons] at this
          omega
        rw [dif_pos h2, dif_pos h3]
        congr 1
        have e : g - s = g - (s + 1) + 1 := by omega
        simp only [e, List.getElem_cons_succ]
      · rw [dif_neg h2, dif_neg]
        rw [List.length_cons] at h2
        omega

theorem pairs_len : (upperPairs N).length = N * (N - 1) / 2 := by
  have := length_upperPairs (N := N)
  omega

theorem antiGen_eq {g : ℕ} (hg : g < (upperPairs N).length) : antiGen N g = genR (upperPairs N)[g].1 (upperPairs N)[g].2 := by
  have hlt := pair_lt hg
  unfold antiGen
  rw [zip_fold (fun (M : Mat N) (p : Fin N × Fin N) => setRe (setRe M p.1 p.2 0.5) p.2 p.1 (-0.5)), dif_pos ⟨Nat.zero_le _, hg⟩]
  simp only [Nat.sub_zero]
  generalize (upperPairs N)[g] = p at hlt
  obtain ⟨i, j⟩ := p
  ext a b
  rw [genR_apply]
  unfold setRe
  have hij : i ≠ j := ne_of_lt hlt
  simp only [of_apply, Matrix.zero_apply]
  by_cases h1 : a = j ∧ b = i
  · rw [if_pos h1]
    obtain ⟨rfl, rfl⟩ := h1
    have : ¬(a = b ∧ b = a) := fun h => hij h.1.symm
    apply Complex.ext <;> simp [hij, hij.symm] <;> norm_num
  · rw [if_neg h1]
    by_cases h2 : a = i ∧ b = j
    · rw [if_pos h2]
      obtain ⟨rfl, rfl⟩ := h2
      apply Complex.ext <;> simp [hij, hij.symm] <;> norm_num
    · rw [if_neg h2, if_neg (fun h' => h2 ⟨h'.1.symm, h'.2.symm⟩), if_neg (fun h' => h1 ⟨h'.1.symm, h'.2.symm⟩), sub_zero]

/-- The family of `symmetric::generator` as matrices. -/
noncomputable def symOff (i j : Fin N) : Mat N := Matrix.single i j (1 / 2) + Matrix.single j i (1 / 2)

theorem symGen_diag (i : Fin N) : symGen N i = Matrix.single i i ((Real.sqrt 0.5 : ℝ) : ℂ) := by
  unfold symGen
  rw [dif_pos i.isLt, zip_fold (fun (M : Mat N) (p : Fin N × Fin N) => setRe (setRe M p.1 p.2 0.5) p.2 p.1 0.5), dif_neg (by omega)]
  ext a b
  unfold setRe
  rw [of_apply, single_apply]
  by_cases h : a = i ∧ b = i
  · obtain ⟨rfl, rfl⟩ := h
    apply Complex.ext <;> simp
  · rw [if_neg h, if_neg (fun h' => h ⟨h'.1.symm, h'.2.symm⟩)]
    rfl

theorem symGen_off {q : ℕ} (hq : q < (upperPairs N).length) : symGen N (N + q) = symOff (upperPairs N)[q].1 (upperPairs N)[q].2 := by
  have hlt := pair_lt hq
  unfold symGen
  rw [dif_neg (by omega), zip_fold (fun (M : Mat N) (p : Fin N × Fin N) => setRe (setRe M p.1 p.2 0.5) p.2 p.1 0.5), dif_pos ⟨by omega, by omega⟩]
  simp only [Nat.add_sub_cancel_left]
  generalize (upperPairs N)[q] = p at hlt
  obtain ⟨i, j⟩ := p
  ext a b
  unfold setRe symOff
  have hij : i ≠ j := ne_of_lt hlt
  simp only [of_apply, Matrix.zero_apply, Matrix.add_apply, single_apply]
  by_cases h1 : a = j ∧ b = i
  · rw [if_pos h1]
    obtain ⟨rfl, rfl⟩ := h1
    apply Complex.ext <;> simp [hij, hij.symm] <;> norm_num
  · rw [if_neg h1]
    by_cases h2 : a = i ∧ b = j
    · rw [if_pos h2]
      obtain ⟨rfl, rfl⟩ := h2
      apply Complex.ext <;> simp [hij, hij.symm] <;> norm_num
    · rw [if_neg h2, if_neg (fun h' => h2 ⟨h'.1.symm, h'.2.symm⟩), if_neg (fun h' => h1 ⟨h'.1.symm, h'.2.symm⟩), add_zero]

/-- What the representations on matrices need of a family `g` of matrices with the dual family `h` in a set `W` of matrices. -/
structure DualFamily {k : ℕ} (g h : Fin k → Mat N) (W : Mat N → Prop) : Prop where
  mem : ∀ j, W (h j)
  add : ∀ A B, W A → W B → W (A + B)
  smul : ∀ (c : ℂ) A, W A → W (c • A)
  conj : ∀ m A, W A → W (m * A * mᵀ)
  orth : ∀ i j, 2 * (g i * h j).trace = if i = j then 1 else 0
  sep : ∀ B, W B → (∀ i, (g i * B).trace = 0) → B = 0

/-- The representation on the matrices. -/
noncomputable def tensRep {k : ℕ} (g h : Fin k → Mat N) (m : Mat N) : Matrix (Fin k) (Fin k) ℂ := Matrix.of fun i j => 2 * (g i * m * h j * mᵀ).trace

theorem DualFamily.expand {k : ℕ} {g h : Fin k → Mat N} {W : Mat N → Prop} (hd : DualFamily g h W) {B : Mat N} (hB : W B) :
    B = ∑ j, (2 * (g j * B).trace) • h j := by
  have hsum : ∀ (s : Finset (Fin k)) (c : Fin k → ℂ), W B → W (B + ∑ j ∈ s, c j • h j) := by
    intro s c hB
    classical
    induction s using Finset.induction_on with
    | empty => simpa using hB
    | insert a s ha ih =>
      rw [Finset.sum_insert ha, add_comm (c a • h a), ← add_assoc]
      exact hd.add _ _ ih (hd.smul _ _ (hd.mem a))
  have h0 : B + ∑ j, (-(2 * (g j * B).trace)) • h j = 0 := by
    refine hd.sep _ (hsum _ _ hB) fun i => ?_
    rw [mul_add, trace_add, Finset.mul_sum, trace_sum, Finset.sum_eq_single i]
    · rw [mul_smul_comm, trace_smul, smul_eq_mul]
      have := hd.orth i i
      rw [if_pos rfl] at this
      linear_combination (-(g i * B).trace) * this
    · intro j _ hj
      have := hd.orth i j
      rw [if_neg hj.symm] at this
      rw [mul_smul_comm, trace_smul, smul_eq_mul]
      linear_combination (-(g j * B).trace) * this
    · exact fun h => absurd (Finset.mem_univ i) h
  simp only [neg_smul, Finset.sum_neg_distrib] at h0
  exact add_neg_eq_zero.1 h0

theorem DualFamily.rep_mul {k : ℕ} {g h : Fin k → Mat N} {W : Mat N → Prop} (hd : DualFamily g h W) (m p : Mat N) :
    tensRep g h (m * p) = tensRep g h m * tensRep g h p := by
  ext i j
  have hB := hd.expand (hd.conj p _ (hd.mem j))
  rw [mul_apply]
  unfold tensRep
  simp only [of_apply]
  have e : g i * (m * p) * h j * (m * p)ᵀ = g i * m * (p * h j * pᵀ) * mᵀ := by
    rw [transpose_mul]; simp only [Matrix.mul_assoc]
  rw [e, hB, Finset.mul_sum, Finset.sum_mul, trace_sum, Finset.mul_sum]
  refine Finset.sum_congr rfl fun l _ => ?_
  rw [mul_smul_comm, smul_mul_assoc, trace_smul, smul_eq_mul]
  have e2 : g l * p * h j * pᵀ = g l * (p * h j * pᵀ) := by simp only [Matrix.mul_assoc]
  rw [e2]
  ring

theorem DualFamily.rep_one {k : ℕ} {g h : Fin k → Mat N} {W : Mat N → Prop} (hd : DualFamily g h W) : tensRep g h 1 = 1 := by
  ext i j
  unfold tensRep
  rw [of_apply, mul_one, transpose_one, mul_one, hd.orth, one_apply]

theorem rep_star {k : ℕ} (g : Fin k → Mat N) (m : Mat N) : tensRep g (fun j => (g j)ᴴ) mᴴ = (tensRep g (fun j => (g j)ᴴ) m)ᴴ := by
  ext i j
  unfold tensRep
  rw [of_apply, conjTranspose_apply, of_apply, star_mul', ← trace_conjTranspose]
  simp only [conjTranspose_mul, conjTranspose_conjTranspose]
  have e : mᴴᵀ = mᵀᴴ := by ext a b; simp
  rw [e, ← trace_mul_comm]
  have h2 : star (2 : ℂ) = 2 := by simp
  rw [h2]
  simp only [Matrix.mul_assoc]

theorem trace_single_mul' (i j : Fin N) (c : ℂ) (B : Mat N) : (Matrix.single i j c * B).trace = c * B j i := by
  unfold trace
  simp only [diag_apply, mul_apply, single_apply]
  rw [Finset.sum_eq_single i, Finset.sum_eq_single j]
  · simp
  · intro b _ hb
    rw [if_neg (fun h => hb h.2.symm), zero_mul]
  · exact fun h => absurd (Finset.mem_univ j) h
  · intro b _ hb
    refine Finset.sum_eq_zero fun l _ => ?_
    rw [if_neg (fun h => hb h.1.symm), zero_mul]
  · exact fun h => absurd (Finset.mem_univ i) h

theorem trace_genR (i j : Fin N) (B : Mat N) : (genR i j * B).trace = (B j i - B i j) / 2 := by
  unfold genR
  rw [sub_mul, trace_sub, trace_single_mul', trace_single_mul']
  ring

theorem trace_symOff (i j : Fin N) (B : Mat N) : (symOff i j * B).trace = (B j i + B i j) / 2 := by
  unfold symOff
  rw [add_mul, trace_add, trace_single_mul', trace_single_mul']
  ring

theorem pair_index {i j : Fin N} (h : i < j) : ∃ q, ∃ hq : q < (upperPairs N).length, (upperPairs N)[q] = (i, j) :=
  List.mem_iff_getElem.1 (mem_upperPairs.2 h)

theorem pair_inj {q q' : ℕ} {hq : q < (upperPairs N).length} {hq' : q' < (upperPairs N).length} :
    (upperPairs N)[q] = (upperPairs N)[q'] ↔ q = q' := nodup_upperPairs.getElem_inj_iff

theorem anti_family (N : ℕ) : DualFamily (fun i : Fin (N * (N - 1) / 2) => antiGen N i) (fun j => (antiGen N j)ᴴ) (fun B => Bᵀ = -B) where
  mem j := by
    have hj : j.val < (upperPairs N).length := by rw [pairs_len]; exact j.isLt
    rw [antiGen_eq hj, genR_conj]
    ext a b
    rw [transpose_apply, Matrix.neg_apply, Matrix.neg_apply, Matrix.neg_apply, genR_apply, genR_apply]
    simp only [and_comm (a := (upperPairs N)[j.val].1 = b), and_comm (a := (upperPairs N)[j.val].2 = b)]
    ring
  add A B hA hB := by rw [transpose_add, hA, hB]; abel
  smul c A hA := by rw [transpose_smul, hA, smul_neg]
  conj m A hA := by rw [transpose_mul, transpose_mul, transpose_transpose, hA]; simp [Matrix.mul_assoc]
  orth i j := by
    have hi : i.val < (upperPairs N).length := by rw [pairs_len]; exact i.isLt
    have hj : j.val < (upperPairs N).length := by rw [pairs_len]; exact j.isLt
    have hin : i = j ↔ (upperPairs N)[i.val] = (upperPairs N)[j.val] := by rw [pair_inj, Fin.ext_iff]
    have hli := pair_lt hi
    have hlj := pair_lt hj
    rw [antiGen_eq hi, antiGen_eq hj, genR_conj, trace_genR, Matrix.neg_apply, Matrix.neg_apply, genR_apply, genR_apply]
    simp only [hin]
    generalize (upperPairs N)[i.val] = p at *
    generalize (upperPairs N)[j.val] = q at *
    obtain ⟨a, b⟩ := p
    obtain ⟨c, d⟩ := q
    simp only at *
    have h1 : ¬(c = b ∧ d = a) := fun h => absurd hlj (by rw [h.1, h.2]; exact not_lt.2 hli.le)
    have h2 : ¬(d = a ∧ c = b) := fun h => h1 ⟨h.2, h.1⟩
    by_cases h : (a, b) = (c, d)
    · obtain ⟨rfl, rfl⟩ := Prod.mk.inj h
      simp [h1, h2]
    · have h3 : ¬(d = b ∧ c = a) := fun h' => h (by rw [h'.1, h'.2])
      have h4 : ¬(c = a ∧ d = b) := fun h' => h3 ⟨h'.2, h'.1⟩
      rw [if_neg h, if_neg h1, if_neg h3, if_neg h4, if_neg h2]
      norm_num
  sep B hB h := by
    have hup : ∀ a b, a < b → B a b = 0 := by
      intro a b hab
      obtain ⟨q, hq, hqe⟩ := pair_index hab
      have hq' : q < N * (N - 1) / 2 := by rw [← pairs_len]; exact hq
      have := h ⟨q, hq'⟩
      rw [antiGen_eq hq, hqe, trace_genR] at this
      have hab' : B b a = -B a b := congrFun (congrFun hB a) b
      rw [hab'] at this
      linear_combination -this
    ext a b
    have hab' : B b a = -B a b := congrFun (congrFun hB a) b
    rcases lt_trichotomy a b with h1 | h1 | h1
    · exact hup a b h1
    · subst h1
      have h2 : B a a + B a a = 0 := by linear_combination hab'
      have : B a a = 0 := by linear_combination h2 / 2
      exact this
    · have := hup b a h1
      rw [hab'] at this
      exact neg_eq_zero.1 this

theorem sym_size : N * (N + 1) / 2 = N + (upperPairs N).length := by
  have := length_upperPairs (N := N)
  have h2 : N * (N + 1) = N * (N - 1) + 2 * N := by
    cases N with
    | zero => rfl
    | succ k => simp; ring
  omega

theorem symOff_conj (i j : Fin N) : (symOff i j)ᴴ = symOff i j := by
  unfold symOff
  rw [conjTranspose_add, conjTranspose_single, conjTranspose_single, add_comm]
  have : star (1 / 2 : ℂ) = 1 / 2 := by apply Complex.ext <;> simp
  rw [this]

theorem symGen_cases {g : ℕ} (hg : g < N * (N + 1) / 2) : (∃ i : Fin N, g = i.val) ∨ ∃ q, q < (upperPairs N).length ∧ g = N + q := by
  rw [sym_size] at hg
  by_cases h : g < N
  · exact Or.inl ⟨⟨g, h⟩, rfl⟩
  · exact Or.inr ⟨g - N, by omega, by omega⟩

theorem symGen_conj {g : ℕ} (hg : g < N * (N + 1) / 2) : (symGen N g)ᴴ = symGen N g := by
  rcases symGen_cases hg with ⟨i, rfl⟩ | ⟨q, hq, rfl⟩
  · rw [symGen_diag, conjTranspose_single, Complex.star_def, Complex.conj_ofReal]
  · rw [symGen_off hq, symOff_conj]

theorem symGen_trans {g : ℕ} (hg : g < N * (N + 1) / 2) : (symGen N g)ᵀ = symGen N g := by
  rcases symGen_cases hg with ⟨i, rfl⟩ | ⟨q, hq, rfl⟩
  · rw [symGen_diag, transpose_single]
  · rw [symGen_off hq]
    unfold symOff
    rw [transpose_add, transpose_single, transpose_single, add_comm]

theorem sym_family (N : ℕ) : DualFamily (fun i : Fin (N * (N + 1) / 2) => symGen N i) (fun j => symGen N j) (fun B => Bᵀ = B) where
  mem j := symGen_trans j.isLt
  add A B hA hB := by rw [transpose_add, hA, hB]
  smul c A hA := by rw [transpose_smul, hA]
  conj m A hA := by rw [transpose_mul, transpose_mul, transpose_transpose, hA]; simp [Matrix.mul_assoc]
  orth i j := by
    have hs : ((Real.sqrt 0.5 : ℝ) : ℂ) * ((Real.sqrt 0.5 : ℝ) : ℂ) = 1 / 2 := by
      rw [← Complex.ofReal_mul, Real.mul_self_sqrt (by norm_num)]; norm_num
    rcases symGen_cases i.isLt with ⟨a, ha⟩ | ⟨q, hq, hqi⟩ <;> rcases symGen_cases j.isLt with ⟨b, hb⟩ | ⟨r, hr, hrj⟩
    · rw [ha, hb, symGen_diag, symGen_diag, trace_single_mul', single_apply]
      have hij : i = j ↔ b = a := by rw [Fin.ext_iff, ha, hb, Fin.ext_iff, eq_comm]
      simp only [hij, and_self]
      split_ifs
      · rw [hs]; norm_num
      · simp
    · have hij : i ≠ j := fun h => by rw [Fin.ext_iff] at h; have := a.isLt; omega
      have hl := pair_lt hr
      rw [ha, hrj, symGen_diag, symGen_off hr, trace_single_mul', if_neg hij]
      unfold symOff
      rw [Matrix.add_apply, single_apply, single_apply, if_neg (fun h => absurd hl (by rw [h.1, h.2]; exact lt_irrefl _)),
        if_neg (fun h => absurd hl (by rw [h.1, h.2]; exact lt_irrefl _))]
      simp
    · have hij : i ≠ j := fun h => by rw [Fin.ext_iff] at h; have := b.isLt; omega
      have hl := pair_lt hq
      rw [hqi, hb, symGen_diag, symGen_off hq, trace_symOff, if_neg hij, single_apply, single_apply,
        if_neg (fun h => absurd hl (by rw [← h.1, ← h.2]; exact lt_irrefl _)), if_neg (fun h => absurd hl (by rw [← h.1, ← h.2]; exact lt_irrefl _))]
      simp
    · have hin : i = j ↔ (upperPairs N)[q] = (upperPairs N)[r] := by rw [pair_inj, Fin.ext_iff, hqi, hrj]; omega
      have hlq := pair_lt hq
      have hlr := pair_lt hr
      rw [hqi, hrj, symGen_off hq, symGen_off hr, trace_symOff]
      simp only [hin]
      generalize (upperPairs N)[q] = p at *
      generalize (upperPairs N)[r] = p' at *
      obtain ⟨a, b⟩ := p
      obtain ⟨c, d⟩ := p'
      simp only at *
      unfold symOff
      simp only [Matrix.add_apply, single_apply]
      have h1 : ¬(c = b ∧ d = a) := fun h => absurd hlr (by rw [h.1, h.2]; exact not_lt.2 hlq.le)
      have h2 : ¬(d = a ∧ c = b) := fun h => h1 ⟨h.2, h.1⟩
      by_cases h : (a, b) = (c, d)
      · obtain ⟨rfl, rfl⟩ := Prod.mk.inj h
        simp [h1, h2]
      · have h3 : ¬(d = b ∧ c = a) := fun h' => h (by rw [h'.1, h'.2])
        have h4 : ¬(c = a ∧ d = b) := fun h' => h3 ⟨h'.2, h'.1⟩
        rw [if_neg h, if_neg h1, if_neg h3, if_neg h4, if_neg h2]
        norm_num
  sep B hB h := by
    have hup : ∀ a b, a < b → B a b = 0 := by
      intro a b hab
      obtain ⟨q, hq, hqe⟩ := pair_index hab
      have := h ⟨N + q, by rw [sym_size]; omega⟩
      rw [symGen_off hq, hqe, trace_symOff] at this
      have hab' : B b a = B a b := congrFun (congrFun hB a) b
      rw [hab'] at this
      linear_combination this
    ext a b
    have hab' : B b a = B a b := congrFun (congrFun hB a) b
    rcases lt_trichotomy a b with h1 | h1 | h1
    · exact hup a b h1
    · subst h1
      have := h ⟨a.val, by rw [sym_size]; have := a.isLt; omega⟩
      rw [symGen_diag, trace_single_mul'] at this
      refine (mul_eq_zero.1 this).resolve_left ?_
      exact Complex.ofReal_ne_zero.2 (Real.sqrt_pos.2 (by norm_num)).ne'
    · rw [← hab']
      exact hup b a h1

/-! ### Derivatives -/

theorem MDeriv.ctrace {f : ℝ → Mat N} {f' : Mat N} (hf : MDeriv f f') : HasDerivAt (fun t => (f t).trace) f'.trace 0 := by
  unfold Matrix.trace
  exact HasDerivAt.fun_sum fun k _ => hf k k

theorem MDeriv.transpose {f : ℝ → Mat N} {f' : Mat N} (hf : MDeriv f f') : MDeriv (fun t => (f t)ᵀ) f'ᵀ := fun i j => hf j i

/-- The direction `A` in the representation. -/
noncomputable def tensGen {k : ℕ} (g h : Fin k → Mat N) (A : Mat N) : Matrix (Fin k) (Fin k) ℂ := Matrix.of fun i j => 4 * (g i * A * h j).trace

theorem tens_deriv {k : ℕ} {g h : Fin k → Mat N} {W : Mat N → Prop} (hd : DualFamily g h W) {σ : ℂ} (hσ : σ * σ = 1) (hg : ∀ i, (g i)ᵀ = σ • g i)
    (hW : ∀ B, W B → Bᵀ = σ • B) {U : ℝ → Mat N} {A : Mat N} (hU : MDeriv U (A * U 0)) :
    MDeriv (fun t => tensRep g h (U t)) (tensGen g h A * tensRep g h (U 0)) := by
  intro i j
  have h1 : MDeriv (fun t => g i * U t * h j * (U t)ᵀ) _ := ((((MDeriv.const (g i)).mul hU).mul (MDeriv.const (h j))).mul hU.transpose)
  have h2 := h1.ctrace.const_mul 2
  refine h2.congr_deriv ?_
  unfold tensRep
  set B := U 0 * h j * (U 0)ᵀ with hB
  have hWB : W B := hd.conj _ _ (hd.mem j)
  have hBe := hd.expand hWB
  have hL : (tensGen g h A * Matrix.of fun i j => 2 * (g i * U 0 * h j * (U 0)ᵀ).trace) i j = 4 * (g i * A * B).trace := by
    rw [mul_apply]
    conv_rhs => rw [hBe, Finset.mul_sum, trace_sum, Finset.mul_sum]
    refine Finset.sum_congr rfl fun l _ => ?_
    unfold tensGen
    rw [of_apply, of_apply, mul_smul_comm, trace_smul, smul_eq_mul, hB]
    simp only [Matrix.mul_assoc]
    ring
  have e1 : (g i * B * Aᵀ).trace = (g i * A * B).trace := by
    rw [← trace_transpose, transpose_mul, transpose_mul, transpose_transpose, hg, hW B hWB, smul_mul_smul_comm, hσ, one_smul, ← Matrix.mul_assoc,
      trace_mul_comm, ← Matrix.mul_assoc]
  have e2 : ((0 * U 0 + g i * (A * U 0)) * h j + g i * U 0 * 0) * (U 0)ᵀ + g i * U 0 * h j * (A * U 0)ᵀ = g i * A * B + g i * B * Aᵀ := by
    rw [hB, transpose_mul]
    simp only [zero_mul, mul_zero, zero_add, add_zero, Matrix.mul_assoc]
  rw [e2, trace_add, e1]
  refine Eq.trans ?_ hL.symm
  ring

theorem anti_trans {i : ℕ} (hi : i < N * (N - 1) / 2) : (antiGen N i)ᵀ = (-1 : ℂ) • antiGen N i := by
  have hi' : i < (upperPairs N).length := by rw [pairs_len]; exact hi
  rw [antiGen_eq hi']
  unfold genR
  rw [transpose_sub, transpose_single, transpose_single, neg_smul, one_smul, neg_sub]

theorem anti_conj {i : ℕ} (hi : i < N * (N - 1) / 2) : (antiGen N i)ᴴ = -antiGen N i := by
  have hi' : i < (upperPairs N).length := by rw [pairs_len]; exact hi
  rw [antiGen_eq hi', genR_conj]

theorem antiRep_eq (m : Mat N) : antiRep m = tensRep (fun i : Fin (N * (N - 1) / 2) => antiGen N i) (fun j => (antiGen N j)ᴴ) m := rfl

theorem symRep_eq (m : Mat N) : symRep m = tensRep (fun i : Fin (N * (N + 1) / 2) => symGen N i) (fun j => symGen N j) m := rfl

theorem antiRep_deriv {U : ℝ → Mat N} {A : Mat N} (hU : MDeriv U (A * U 0)) :
    MDeriv (fun t => antiRep (U t)) (tensGen (fun i : Fin (N * (N - 1) / 2) => antiGen N i) (fun j => (antiGen N j)ᴴ) A * antiRep (U 0)) :=
  tens_deriv (anti_family N) (σ := -1) (by norm_num) (fun i => anti_trans i.isLt) (fun B hB => by rw [hB, neg_smul, one_smul]) hU

theorem symRep_deriv {U : ℝ → Mat N} {A : Mat N} (hU : MDeriv U (A * U 0)) :
    MDeriv (fun t => symRep (U t)) (tensGen (fun i : Fin (N * (N + 1) / 2) => symGen N i) (fun j => symGen N j) A * symRep (U 0)) :=
  tens_deriv (sym_family N) (σ := 1) (by norm_num) (fun i => by rw [symGen_trans i.isLt, one_smul]) (fun B hB => by rw [hB, one_smul]) hU

theorem tensGen_sum {k n : ℕ} (g h : Fin k → Mat N) (c : Fin n → ℝ) (X : Fin n → Mat N) :
    tensGen g h (∑ a, (c a : ℂ) • X a) = ∑ a, (c a : ℂ) • tensGen g h (X a) := by
  ext i j
  rw [Matrix.sum_apply]
  unfold tensGen
  simp only [of_apply, Matrix.smul_apply, smul_eq_mul]
  rw [Finset.mul_sum, Finset.sum_mul, trace_sum, Finset.mul_sum]
  refine Finset.sum_congr rfl fun a _ => ?_
  rw [mul_smul_comm, smul_mul_assoc, trace_smul, smul_eq_mul]
  ring

theorem symGen_gen (T : ℕ → Mat N) (a : ℕ) :
    tensGen (fun i : Fin (N * (N + 1) / 2) => symGen N i) (fun j => symGen N j) (Complex.I • T a) = symGenI T a := by
  ext i j
  unfold tensGen symGenI
  rw [of_apply, of_apply, mul_smul_comm, smul_mul_assoc, trace_smul, smul_eq_mul]
  have : (⟨0, 4⟩ : ℂ) = 4 * Complex.I := by apply Complex.ext <;> simp
  rw [this]
  ring

theorem antiGen_gen (T : ℕ → Mat N) (a : ℕ) :
    tensGen (fun i : Fin (N * (N - 1) / 2) => antiGen N i) (fun j => (antiGen N j)ᴴ) (Complex.I • T a) = -antiGenI T a := by
  ext i j
  unfold tensGen antiGenI
  rw [Matrix.neg_apply, of_apply, of_apply]
  simp only []
  rw [anti_conj j.isLt, mul_smul_comm, smul_mul_assoc, trace_smul, smul_eq_mul, mul_neg, trace_neg]
  have : (⟨0, 4⟩ : ℂ) = 4 * Complex.I := by apply Complex.ext <;> simp
  rw [this]
  ring

theorem antiGenI_conj {T : ℕ → Mat N} {a : ℕ} (ha : (T a)ᴴ = T a) : (antiGenI T a)ᴴ = -antiGenI T a := by
  ext i j
  unfold antiGenI
  rw [conjTranspose_apply, Matrix.neg_apply, of_apply, of_apply, star_mul', ← trace_conjTranspose, conjTranspose_mul, conjTranspose_mul, ha, anti_conj i.isLt,
    anti_conj j.isLt, mul_neg, neg_mul, mul_neg, neg_neg]
  have : star (⟨0, 4⟩ : ℂ) = -⟨0, 4⟩ := by apply Complex.ext <;> simp
  rw [this, ← Matrix.mul_assoc, neg_mul]

/-! ### The adjoint representation -/

theorem herm_complete {T : ℕ → Mat N} (hT : IsSuBasis T) (hN : 0 < N) {H : Mat N} (hH : Hᴴ = H) (ht : H.trace = 0) :
    H = ∑ a : Fin (N * N - 1), ((2 * (H * T a).trace.re : ℝ) : ℂ) • T a := by
  have h1 := su_complete hT hN (A := Complex.I • H) (by rw [conjTranspose_smul, hH, Complex.star_def, Complex.conj_I, neg_smul]) (by rw [trace_smul, ht, smul_zero])
  have h2 : ∀ a : Fin (N * N - 1), suCoord T a (Complex.I • H) = 2 * (H * T a).trace.re := by
    intro a
    unfold suCoord
    rw [conjTranspose_smul, hT.herm a a.isLt, Complex.star_def, Complex.conj_I, smul_mul_smul_comm, trace_smul, trace_mul_comm]
    simp
  simp only [h2, smul_comm _ Complex.I, ← Finset.smul_sum] at h1
  have h3 := congrArg (fun X => (-Complex.I) • X) h1
  simp only [smul_smul] at h3
  have h4 : -Complex.I * Complex.I = 1 := by rw [neg_mul, Complex.I_mul_I, neg_neg]
  rw [h4, one_smul, one_smul] at h3
  exact h3

theorem unitary_mul_star {m : Mat N} (hm : m ∈ unitaryGroup (Fin N) ℂ) : m * mᴴ = 1 := mem_unitaryGroup_iff.1 hm

theorem unitary_star_mul {m : Mat N} (hm : m ∈ unitaryGroup (Fin N) ℂ) : mᴴ * m = 1 := mem_unitaryGroup_iff'.1 hm

theorem adj_rotates {T : ℕ → Mat N} (hT : IsSuBasis T) (hN : 0 < N) {m : Mat N} (hm : m ∈ unitaryGroup (Fin N) ℂ) (i : Fin (N * N - 1)) :
    mᴴ * T i * m = ∑ j, ((adjRep T m i j : ℝ) : ℂ) • T j := by
  refine herm_complete hT hN ?_ ?_
  · rw [conjTranspose_mul, conjTranspose_mul, conjTranspose_conjTranspose, hT.herm i i.isLt, Matrix.mul_assoc]
  · rw [trace_mul_comm, ← Matrix.mul_assoc, unitary_mul_star hm, one_mul, hT.traceless i i.isLt]

theorem adj_mul {T : ℕ → Mat N} (hT : IsSuBasis T) (hN : 0 < N) {m : Mat N} (hm : m ∈ unitaryGroup (Fin N) ℂ) (p : Mat N) :
    adjRep T (m * p) = adjRep T m * adjRep T p := by
  ext i j
  rw [mul_apply]
  have e : (m * p)ᴴ * T i * (m * p) * T j = pᴴ * (mᴴ * T i * m) * p * T j := by
    rw [conjTranspose_mul]; simp only [Matrix.mul_assoc]
  show 2 * ((m * p)ᴴ * T i * (m * p) * T j).trace.re = _
  rw [e, adj_rotates hT hN hm, Finset.mul_sum, Finset.sum_mul, Finset.sum_mul, trace_sum, Complex.re_sum, Finset.mul_sum]
  refine Finset.sum_congr rfl fun l _ => ?_
  rw [mul_smul_comm, smul_mul_assoc, smul_mul_assoc, trace_smul, smul_eq_mul, Complex.re_ofReal_mul]
  show _ = adjRep T m i l * (2 * (pᴴ * T l * p * T j).trace.re)
  ring

theorem adj_one {T : ℕ → Mat N} (hT : IsSuBasis T) : adjRep T 1 = 1 := by
  ext i j
  show 2 * ((1 : Mat N)ᴴ * T i * 1 * T j).trace.re = _
  rw [conjTranspose_one, one_mul, mul_one, hT.orthonormal i i.isLt j j.isLt, one_apply]
  by_cases h : i = j
  · subst h; simp
  · rw [if_neg h, if_neg (fun h' => h (Fin.ext h'))]; simp

theorem adj_star (T : ℕ → Mat N) (m : Mat N) : adjRep T mᴴ = (adjRep T m)ᵀ := by
  ext i j
  rw [transpose_apply]
  show 2 * (mᴴᴴ * T i * mᴴ * T j).trace.re = 2 * (mᴴ * T j * m * T i).trace.re
  rw [conjTranspose_conjTranspose, Matrix.mul_assoc (m * T i), trace_mul_comm, ← Matrix.mul_assoc]

theorem adj_deriv {T : ℕ → Mat N} (hT : IsSuBasis T) (hN : 0 < N) {U : ℝ → Mat N} {A : Mat N} (hA : IsSuAlg A) (hU : MDeriv U (A * U 0))
    (hm : U 0 ∈ unitaryGroup (Fin N) ℂ) (i j : Fin (N * N - 1)) :
    HasDerivAt (fun t => adjRep T (U t) i j) ((∑ g : Fin (N * N - 1), suCoord T g A • (adjGenI T g * adjRep T (U 0)) i j)) 0 := by
  have h1 : MDeriv (fun t => (U t)ᴴ * T i * U t * T j) _ := (((hU.star.mul (MDeriv.const (T i))).mul hU).mul (MDeriv.const (T j)))
  have h2 := h1.trace.const_mul 2
  refine h2.congr_deriv ?_
  set R := U 0 with hR
  have hAe := su_complete hT hN hA.1 hA.2
  have e1 : (((A * R)ᴴ * T i + Rᴴ * 0) * R + Rᴴ * T i * (A * R)) * T j + Rᴴ * T i * R * 0 = Rᴴ * (T i * A - A * T i) * R * T j := by
    rw [conjTranspose_mul, hA.1]
    simp only [mul_zero, add_zero, Matrix.mul_assoc, mul_sub, sub_mul, neg_mul, mul_neg, add_mul]
    abel
  have hH : T i * A - A * T i = ∑ l : Fin (N * N - 1), ((2 * ((T i * A - A * T i) * T l).trace.re : ℝ) : ℂ) • T l := by
    refine herm_complete hT hN ?_ ?_
    · rw [conjTranspose_sub, conjTranspose_mul, conjTranspose_mul, hA.1, hT.herm i i.isLt, mul_neg, neg_mul]
      abel
    · rw [trace_sub, trace_mul_comm, sub_self]
  have hX : ∀ l : Fin (N * N - 1), 2 * ((T i * A - A * T i) * T l).trace.re = ∑ g : Fin (N * N - 1), suCoord T g A * adjGenI T g i l := by
    intro l
    conv_lhs => rw [hAe]
    rw [Finset.mul_sum, Finset.sum_mul, ← Finset.sum_sub_distrib, Finset.sum_mul, trace_sum, Complex.re_sum, Finset.mul_sum]
    refine Finset.sum_congr rfl fun g _ => ?_
    unfold adjGenI
    rw [of_apply, mul_smul_comm, smul_mul_assoc, ← smul_sub, smul_mul_assoc, mul_smul_comm, smul_mul_assoc, ← smul_sub, smul_mul_assoc, sub_mul, trace_smul,
      trace_smul, trace_sub]
    simp only [smul_eq_mul, Complex.mul_re, Complex.mul_im, Complex.I_re, Complex.I_im, Complex.sub_im, Complex.ofReal_re, Complex.ofReal_im]
    ring
  rw [e1, hH, Finset.mul_sum, Finset.sum_mul, Finset.sum_mul, trace_sum, Complex.re_sum, Finset.mul_sum]
  simp only [mul_apply, smul_eq_mul, Finset.mul_sum]
  rw [Finset.sum_comm]
  refine Finset.sum_congr rfl fun l _ => ?_
  rw [mul_smul_comm, smul_mul_assoc, smul_mul_assoc, trace_smul, smul_eq_mul, Complex.re_ofReal_mul, hX]
  show _ = ∑ g : Fin (N * N - 1), suCoord T g A * (adjGenI T g i l * (2 * (Rᴴ * T l * R * T j).trace.re))
  rw [Finset.sum_mul, Finset.mul_sum]
  refine Finset.sum_congr rfl fun g _ => ?_
  ring

theorem adjGenI_trans {T : ℕ → Mat N} (hT : IsSuBasis T) {g : ℕ} (hg : g < N * N - 1) : (adjGenI T g)ᵀ = -adjGenI T g := by
  ext i j
  unfold adjGenI
  rw [transpose_apply, Matrix.neg_apply, of_apply, of_apply]
  have h1 : (T g * T j * T i).trace.im = (T j * T i * T g).trace.im := by rw [Matrix.mul_assoc, trace_mul_comm]
  have key : ∀ a b c : ℕ, a < N * N - 1 → b < N * N - 1 → c < N * N - 1 → (T a * T b * T c).trace.im = -(T c * T b * T a).trace.im := by
    intro a b c ha hb hc
    have := trace_conjTranspose (T a * T b * T c)
    rw [conjTranspose_mul, conjTranspose_mul, hT.herm a ha, hT.herm b hb, hT.herm c hc, ← Matrix.mul_assoc] at this
    rw [this]
    simp
  have h2 := key g j i hg j.isLt i.isLt
  have h3 := key j g i j.isLt hg i.isLt
  have h4 : (T i * T j * T g).trace.im = (T g * T i * T j).trace.im := by rw [trace_mul_comm, ← Matrix.mul_assoc]
  have h5 : (T i * T g * T j).trace.im = (T i * T g * T j).trace.im := rfl
  rw [h2, h3, h4]
  ring

/-! ### Curves, bases and faithfulness -/

/-- The curve `exp (t A)`. -/
theorem exp_suCurve {A : Mat N} (hA : IsSuAlg A) : SuCurve (fun t : ℝ => NormedSpace.exp ((t : ℂ) • A)) A ∧ NormedSpace.exp (((0 : ℝ) : ℂ) • A) = 1 := by
  have h0 : NormedSpace.exp (((0 : ℝ) : ℂ) • A) = 1 := by rw [Complex.ofReal_zero, zero_smul, NormedSpace.exp_zero]
  refine ⟨⟨fun t => ?_, ?_⟩, h0⟩
  · have h1 : ((t : ℂ) • A)ᴴ = -((t : ℂ) • A) := by rw [conjTranspose_smul, hA.1, Complex.star_def, Complex.conj_ofReal, smul_neg]
    have h2 : ((t : ℂ) • A).trace = 0 := by rw [trace_smul, hA.2, smul_zero]
    exact mem_specialUnitaryGroup_iff.2 ⟨by
      rw [mem_unitaryGroup_iff, star_eq_conjTranspose, ← exp_conjTranspose, h1,
        ← exp_add_of_commute _ _ (show _ * _ = _ * _ by rw [mul_neg, neg_mul]), add_neg_cancel, NormedSpace.exp_zero], exp_antiherm_det h1 h2⟩
  · simp only [h0, mul_one]
    refine exp_deriv ?_ (by rw [Complex.ofReal_zero, zero_smul])
    intro i j
    have h1 : HasDerivAt (fun t : ℝ => (t : ℂ)) 1 0 := Complex.ofRealCLM.hasDerivAt
    have h2 := h1.mul_const (A i j)
    rw [one_mul] at h2
    exact h2

/-- The generators of `algebra.h`, made hermitean. -/
noncomputable def hermGen (N l : ℕ) : Mat N := (-Complex.I) • genAt N l

theorem hermGen_basis (hN : 0 < N) : IsSuBasis (hermGen N) where
  herm a _ := by
    unfold hermGen
    rw [conjTranspose_smul, genAt_conj, smul_neg, ← neg_smul, star_neg, Complex.star_def, Complex.conj_I, neg_neg]
  traceless a ha := by
    unfold hermGen
    rw [trace_smul, genAt_trace hN ha, smul_zero]
  orthonormal a ha b hb := by
    unfold hermGen
    rw [smul_mul_smul_comm, trace_smul]
    have h1 := coef_genAt hN ha hb
    unfold coef at h1
    rw [genAt_conj, neg_mul, trace_neg, Complex.neg_re] at h1
    have h2 : (genAt N a * genAt N b).trace.im = 0 := by
      have := trace_conjTranspose (genAt N a * genAt N b)
      rw [conjTranspose_mul, genAt_conj, genAt_conj, neg_mul_neg, trace_mul_comm] at this
      have h3 := congrArg Complex.im this
      rw [Complex.star_def, Complex.conj_im] at h3
      linarith
    have h3 : (genAt N a * genAt N b).trace.re = if a = b then -(1 / 2) else 0 := by
      split_ifs at h1 ⊢ <;> linarith
    apply Complex.ext
    · rw [smul_eq_mul, Complex.mul_re, h2, h3]
      split_ifs <;> simp
    · rw [smul_eq_mul, Complex.mul_im, h2, h3]
      split_ifs <;> simp

/-- What the matrices that act trivially on `W` satisfy. -/
theorem tensGen_zero {k : ℕ} {g h : Fin k → Mat N} {W : Mat N → Prop} (hd : DualFamily g h W) {σ : ℂ} (hσ : σ * σ = 1) (hg : ∀ i, (g i)ᵀ = σ • g i)
    (hW : ∀ B, W B ↔ Bᵀ = σ • B) {A : Mat N} (h0 : tensGen g h A = 0) {B : Mat N} (hB : W B) : A * B + B * Aᵀ = 0 := by
  have hb : ∀ j, A * h j + h j * Aᵀ = 0 := by
    intro j
    have hj := (hW _).1 (hd.mem j)
    refine hd.sep _ ((hW _).2 ?_) fun i => ?_
    · rw [transpose_add, transpose_mul, transpose_mul, transpose_transpose, hj, smul_mul_assoc, mul_smul_comm, smul_add, add_comm]
    · have h1 : 4 * (g i * A * h j).trace = 0 := congrFun (congrFun h0 i) j
      have e1 : (g i * (h j * Aᵀ)).trace = (g i * A * h j).trace := by
        rw [← trace_transpose, transpose_mul, transpose_mul, transpose_transpose, hg, hj, mul_smul_comm, mul_smul_comm, smul_mul_assoc, smul_smul, hσ, one_smul,
          trace_mul_comm, ← Matrix.mul_assoc]
      rw [mul_add, trace_add, e1, ← Matrix.mul_assoc]
      linear_combination h1 / 2
  rw [hd.expand hB, Finset.mul_sum, Finset.sum_mul, ← Finset.sum_add_distrib]
  refine Finset.sum_eq_zero fun j _ => ?_
  rw [mul_smul_comm, smul_mul_assoc, ← smul_add, hb, smul_zero]

theorem sym_faithful {A : Mat N} (h0 : tensGen (fun i : Fin (N * (N + 1) / 2) => symGen N i) (fun j => symGen N j) A = 0) : A = 0 := by
  have key : ∀ a : Fin N, A * Matrix.single a a 1 + Matrix.single a a 1 * Aᵀ = 0 := fun a =>
    tensGen_zero (sym_family N) (σ := 1) (by norm_num) (fun i => by rw [symGen_trans i.isLt, one_smul]) (fun B => by rw [one_smul]) h0 (by rw [transpose_single])
  ext x a
  have h1 := congrFun (congrFun (key a) x) a
  rw [Matrix.add_apply, Matrix.zero_apply] at h1
  by_cases hx : x = a
  · subst hx
    simp at h1
    exact h1
  · simp [hx] at h1
    exact h1

theorem anti_faithful (hN : 3 ≤ N) {A : Mat N} (h0 : tensGen (fun i : Fin (N * (N - 1) / 2) => antiGen N i) (fun j => (antiGen N j)ᴴ) A = 0) : A = 0 := by
  have key : ∀ a b : Fin N, A * (Matrix.single a b 1 - Matrix.single b a 1) + (Matrix.single a b 1 - Matrix.single b a 1) * Aᵀ = 0 := fun a b =>
    tensGen_zero (anti_family N) (σ := -1) (by norm_num) (fun i => anti_trans i.isLt) (fun B => by rw [neg_smul, one_smul]) h0
      (by rw [transpose_sub, transpose_single, transpose_single, neg_sub])
  have third : ∀ a b : Fin N, ∃ c : Fin N, c ≠ a ∧ c ≠ b := by
    intro a b
    by_contra hc
    push Not at hc
    have h1 : (Finset.univ : Finset (Fin N)) ⊆ {a, b} := fun c _ => by
      by_cases h : c = a
      · simp [h]
      · simp [hc c h]
    have h2 := Finset.card_le_card h1
    rw [Finset.card_univ, Fintype.card_fin] at h2
    have h3 := Finset.card_le_two (a := a) (b := b)
    omega
  have off : ∀ x a : Fin N, x ≠ a → A x a = 0 := by
    intro x a hxa
    obtain ⟨b, hbx, hba⟩ := third x a
    have h1 := congrFun (congrFun (key a b) x) b
    rw [Matrix.add_apply, Matrix.zero_apply, mul_sub, sub_mul, Matrix.sub_apply, Matrix.sub_apply] at h1
    simp [hxa, hbx.symm, hba] at h1
    exact h1
  have dia : ∀ a b : Fin N, a ≠ b → A a a + A b b = 0 := by
    intro a b hab
    have h1 := congrFun (congrFun (key a b) a) b
    rw [Matrix.add_apply, Matrix.zero_apply, mul_sub, sub_mul, Matrix.sub_apply, Matrix.sub_apply] at h1
    simp [hab, hab.symm] at h1
    exact h1
  ext x a
  by_cases hxa : x = a
  · subst hxa
    obtain ⟨b, hb, -⟩ := third x x
    obtain ⟨c, hc, hcb⟩ := third x b
    have h1 := dia x b hb.symm
    have h2 := dia x c hc.symm
    have h3 := dia b c hcb.symm
    rw [Matrix.zero_apply]
    linear_combination (h1 + h2 - h3) / 2
  · exact off x a hxa

theorem suAlg_gen {T : ℕ → Mat N} (hT : IsSuBasis T) {g : ℕ} (hg : g < N * N - 1) : IsSuAlg (Complex.I • T g) :=
  ⟨by rw [conjTranspose_smul, hT.herm g hg, Complex.star_def, Complex.conj_I, neg_smul], by rw [trace_smul, hT.traceless g hg, smul_zero]⟩

theorem suCoord_gen {T : ℕ → Mat N} (hT : IsSuBasis T) {a g : ℕ} (ha : a < N * N - 1) (hg : g < N * N - 1) :
    suCoord T a (Complex.I • T g) = if a = g then 1 else 0 := by
  unfold suCoord
  rw [conjTranspose_smul, hT.herm a ha, Complex.star_def, Complex.conj_I, smul_mul_smul_comm, trace_smul, hT.orthonormal a ha g hg]
  split_ifs <;> simp

theorem gen_ne_zero {T : ℕ → Mat N} (hT : IsSuBasis T) {g : ℕ} (hg : g < N * N - 1) : Complex.I • T g ≠ 0 := by
  intro h
  have h1 := suCoord_gen hT hg hg
  rw [h, if_pos rfl] at h1
  unfold suCoord at h1
  simp at h1

theorem anti_le (hN : 0 < N) : N * (N - 1) / 2 ≤ N * N - 1 := by
  obtain ⟨k, rfl⟩ : ∃ k, N = k + 1 := ⟨N - 1, by omega⟩
  rw [Nat.add_sub_cancel]
  have h1 : (k + 1) * (k + 1) = (k + 1) * k + (k + 1) := by ring
  omega

theorem sym_le (hN : 3 ≤ N) : N * (N + 1) / 2 ≤ N * N - 2 := by
  obtain ⟨k, rfl⟩ : ∃ k, N = k + 3 := ⟨N - 3, by omega⟩
  have h1 : (k + 3) * (k + 3 + 1) = k * k + 7 * k + 12 := by ring
  have h2 : (k + 3) * (k + 3) = k * k + 6 * k + 9 := by ring
  omega

theorem trace_mul_conj_zero {k : ℕ} {G : Matrix (Fin k) (Fin k) ℂ} (h : (G * Gᴴ).trace.re = 0) : G = 0 := by
  have h1 : (G * Gᴴ).trace.re = ∑ i, ∑ j, Complex.normSq (G i j) := by
    unfold trace
    rw [Complex.re_sum]
    refine Finset.sum_congr rfl fun i _ => ?_
    rw [diag_apply, mul_apply, Complex.re_sum]
    refine Finset.sum_congr rfl fun j _ => ?_
    rw [conjTranspose_apply, Complex.star_def, Complex.mul_conj, Complex.ofReal_re]
  have h2 := (Finset.sum_eq_zero_iff_of_nonneg fun i _ => Finset.sum_nonneg fun j _ => Complex.normSq_nonneg (G i j)).1 (h1.symm.trans h)
  ext i j
  have h3 := (Finset.sum_eq_zero_iff_of_nonneg fun j _ => Complex.normSq_nonneg (G i j)).1 (h2 i (Finset.mem_univ i))
  exact Complex.normSq_eq_zero.1 (h3 j (Finset.mem_univ j))

theorem DualFamily.act {k : ℕ} {g h : Fin k → Mat N} {W : Mat N → Prop} (hd : DualFamily g h W) (m : Mat N) {B : Mat N} (hB : W B) {v : Fin k → ℂ}
    (hv : B = ∑ j, v j • h j) : m * B * mᵀ = ∑ i, (tensRep g h m).mulVec v i • h i := by
  rw [hd.expand (hd.conj m B hB)]
  refine Finset.sum_congr rfl fun i _ => ?_
  congr 1
  rw [hv, Finset.mul_sum, Finset.sum_mul, Finset.mul_sum, trace_sum, Finset.mul_sum]
  refine Finset.sum_congr rfl fun j _ => ?_
  show _ = 2 * (g i * m * h j * mᵀ).trace * v j
  rw [mul_smul_comm, smul_mul_assoc, mul_smul_comm, trace_smul, smul_eq_mul]
  simp only [Matrix.mul_assoc]
  ring

theorem DualFamily.coords {k : ℕ} {g h : Fin k → Mat N} {W : Mat N → Prop} (hd : DualFamily g h W) {B : Mat N} (hB : W B) :
    ∃! v : Fin k → ℂ, B = ∑ j, v j • h j := by
  refine ⟨fun j => 2 * (g j * B).trace, hd.expand hB, fun v hv => funext fun i => ?_⟩
  dsimp only at hv ⊢
  conv_rhs => rw [hv, Finset.mul_sum, trace_sum, Finset.mul_sum, Finset.sum_congr rfl (fun j _ => by rw [mul_smul_comm, trace_smul, smul_eq_mul])]
  rw [Finset.sum_eq_single i]
  · have := hd.orth i i
    rw [if_pos rfl] at this
    linear_combination -(v i) * this
  · intro j _ hj
    have := hd.orth i j
    rw [if_neg hj.symm] at this
    linear_combination (v j) * this
  · exact fun h => absurd (Finset.mem_univ i) h

end Hila
