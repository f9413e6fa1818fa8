import Verif.Lemmas.Reps

/-!
# C91: the representations of SU(N) and the force on the links
-/

namespace Hila

open Matrix

variable {N : ℕ}

/-- C91: for unitary matrices `adjoint::represent` is the rotation of the generators, a homomorphism into the orthogonal matrices. -/
theorem C91_adjoint (hN : 0 < N) {T : ℕ → Mat N} (hT : IsSuBasis T) {m : Mat N} (hm : m ∈ unitaryGroup (Fin N) ℂ) :
    (∀ i : Fin (N * N - 1), mᴴ * T i * m = ∑ j, ((adjRep T m i j : ℝ) : ℂ) • T j) ∧
      (∀ p ∈ unitaryGroup (Fin N) ℂ, adjRep T (m * p) = adjRep T m * adjRep T p) ∧ adjRep T mᴴ = (adjRep T m)ᵀ ∧ adjRep T m * (adjRep T m)ᵀ = 1 := by
  refine ⟨adj_rotates hT hN hm, fun p _ => adj_mul hT hN hm p, adj_star T m, ?_⟩
  rw [← adj_star, ← adj_mul hT hN hm, unitary_mul_star hm, adj_one hT]

/-- C91: `antisymmetric::represent` is a homomorphism, unitary on unitary matrices. -/
theorem C91_antisym (m p : Mat N) : antiRep (m * p) = antiRep m * antiRep p ∧ antiRep (1 : Mat N) = 1 ∧ antiRep mᴴ = (antiRep m)ᴴ ∧
    (m ∈ unitaryGroup (Fin N) ℂ → antiRep m ∈ unitaryGroup (Fin (N * (N - 1) / 2)) ℂ) := by
  have h1 : ∀ m p : Mat N, antiRep (m * p) = antiRep m * antiRep p := fun m p => (anti_family N).rep_mul m p
  have h2 : antiRep (1 : Mat N) = 1 := (anti_family N).rep_one
  have h3 : ∀ m : Mat N, antiRep mᴴ = (antiRep m)ᴴ := fun m => rep_star (fun i : Fin (N * (N - 1) / 2) => antiGen N i) m
  refine ⟨h1 m p, h2, h3 m, fun hm => ?_⟩
  rw [mem_unitaryGroup_iff, star_eq_conjTranspose, ← h3, ← h1, unitary_mul_star hm, h2]

/-- C91: `symmetric::represent` is a homomorphism, unitary on unitary matrices. -/
theorem C91_sym (m p : Mat N) : symRep (m * p) = symRep m * symRep p ∧ symRep (1 : Mat N) = 1 ∧ symRep mᴴ = (symRep m)ᴴ ∧
    (m ∈ unitaryGroup (Fin N) ℂ → symRep m ∈ unitaryGroup (Fin (N * (N + 1) / 2)) ℂ) := by
  have h1 : ∀ m p : Mat N, symRep (m * p) = symRep m * symRep p := fun m p => (sym_family N).rep_mul m p
  have h2 : symRep (1 : Mat N) = 1 := (sym_family N).rep_one
  have h3 : ∀ m : Mat N, symRep mᴴ = (symRep m)ᴴ := by
    intro m
    have h := rep_star (fun i : Fin (N * (N + 1) / 2) => symGen N i) m
    have e : (fun j : Fin (N * (N + 1) / 2) => (symGen N j)ᴴ) = fun j : Fin (N * (N + 1) / 2) => symGen N j := funext fun j => symGen_conj j.isLt
    simp only [e] at h
    exact h
  refine ⟨h1 m p, h2, h3 m, fun hm => ?_⟩
  rw [mem_unitaryGroup_iff, star_eq_conjTranspose, ← h3, ← h1, unitary_mul_star hm, h2]

/-- C91: the matrices of the three tables span what the representations act on: the generators of the antisymmetric (symmetric) representation are a basis of the
antisymmetric (symmetric) matrices, on which `represent` acts by `B ↦ m B mᵀ`. -/
theorem C91_action (m : Mat N) :
    (∀ B : Mat N, Bᵀ = -B → ∀ v : Fin (N * (N - 1) / 2) → ℂ, B = ∑ j, v j • (antiGen N j)ᴴ → m * B * mᵀ = ∑ i, (antiRep m).mulVec v i • (antiGen N i)ᴴ) ∧
      (∀ B : Mat N, Bᵀ = -B → ∃! v : Fin (N * (N - 1) / 2) → ℂ, B = ∑ j, v j • (antiGen N j)ᴴ) ∧
      (∀ B : Mat N, Bᵀ = B → ∀ v : Fin (N * (N + 1) / 2) → ℂ, B = ∑ j, v j • symGen N j → m * B * mᵀ = ∑ i, (symRep m).mulVec v i • symGen N i) ∧
      ∀ B : Mat N, Bᵀ = B → ∃! v : Fin (N * (N + 1) / 2) → ℂ, B = ∑ j, v j • symGen N j :=
  ⟨fun _ hB _ hv => (anti_family N).act m hB hv, fun _ hB => (anti_family N).coords hB, fun _ hB _ hv => (sym_family N).act m hB hv,
    fun _ hB => (sym_family N).coords hB⟩

/-- C91: the force of the adjoint representation is the derivative in every direction, and `represented_generator_I` is the generator times `i`. -/
theorem C91_adjoint_force (hN : 0 < N) {T : ℕ → Mat N} (hT : IsSuBasis T) :
    (∀ A, IsSuAlg A → IsForceAlong (fun m => (adjRep T m).map Complex.ofReal) (adjForce T) A) ∧
      ∀ g < N * N - 1, IsRepresented (fun m => (adjRep T m).map Complex.ofReal) (Complex.I • T g) ((adjGenI T g).map Complex.ofReal) := by
  have hD : ∀ {U : ℝ → Mat N} {A : Mat N}, IsSuAlg A → SuCurve U A → MDeriv (fun t => (adjRep T (U t)).map Complex.ofReal)
      (∑ g : Fin (N * N - 1), (suCoord T g A : ℂ) • ((adjGenI T g).map Complex.ofReal * (adjRep T (U 0)).map Complex.ofReal)) := by
    intro U A hA hU i j
    have h1 := (adj_deriv hT hN hA hU.2 (mem_specialUnitaryGroup_iff.1 (hU.1 0)).1 i j).ofReal_comp
    refine h1.congr_deriv ?_
    rw [Matrix.sum_apply, Complex.ofReal_sum]
    refine Finset.sum_congr rfl fun g _ => ?_
    rw [smul_eq_mul, Complex.ofReal_mul, Matrix.smul_apply, smul_eq_mul, mul_apply, mul_apply, Complex.ofReal_sum]
    congr 1
    refine Finset.sum_congr rfl fun l _ => ?_
    rw [Complex.ofReal_mul]
    rfl
  constructor
  · intro A hA U hU F
    have h2 := ((hD hA hU).mul (MDeriv.const F)).trace
    refine h2.congr_deriv ?_
    unfold adjForce
    rw [force_pair hT _ le_rfl, mul_zero, add_zero, Finset.sum_mul, trace_sum, Complex.re_sum, Finset.mul_sum, Finset.sum_range]
    refine Finset.sum_congr rfl fun g _ => ?_
    rw [adjGenI_trans hT g.isLt, smul_mul_assoc, trace_smul, smul_eq_mul, Complex.re_ofReal_mul, Matrix.mul_assoc]
    have e : (-adjGenI T g).map Complex.ofReal = -(adjGenI T g).map Complex.ofReal := by ext i j; simp
    rw [e, Matrix.neg_mul, trace_neg, Complex.neg_re]
    ring
  · intro g hg U hU h0
    have hA := suAlg_gen hT hg
    have h1 := hD hA hU
    have h2 : (adjRep T (U 0)).map Complex.ofReal = 1 := by
      rw [h0, adj_one hT]
      ext i j
      rw [map_apply, one_apply, one_apply]
      split_ifs <;> simp
    rw [h2] at h1
    simp only [mul_one] at h1
    rw [Finset.sum_eq_single ⟨g, hg⟩] at h1
    · rw [suCoord_gen hT hg hg, if_pos rfl, Complex.ofReal_one, one_smul] at h1
      exact h1
    · intro b _ hb
      rw [suCoord_gen hT b.isLt hg, if_neg (fun h => hb (Fin.ext h)), Complex.ofReal_zero, zero_smul]
    · exact fun h => absurd (Finset.mem_univ _) h

/-- C91: the force of the symmetric representation is the derivative in the directions of the first N (N + 1) / 2 generators, and `represented_generator_I` is
the generator times `i`. Missing: the other directions, see `C91_sym_force_wrong`. -/
theorem C91_sym_force_partial (hN : 0 < N) {T : ℕ → Mat N} (hT : IsSuBasis T) :
    (∀ A, IsSuAlg A → (∀ a < N * N - 1, N * (N + 1) / 2 ≤ a → suCoord T a A = 0) → N * (N + 1) / 2 ≤ N * N - 1 → IsForceAlong symRep (symForce T) A) ∧
      ∀ g < N * N - 1, IsRepresented symRep (Complex.I • T g) (symGenI T g) := by
  constructor
  · intro A hA hc hle U hU F
    have h2 := ((symRep_deriv hU.2).mul (MDeriv.const F)).trace
    refine h2.congr_deriv ?_
    unfold symForce
    rw [force_pair hT _ hle, mul_zero, add_zero]
    conv_lhs => rw [su_complete hT hN hA.1 hA.2]
    rw [tensGen_sum, Finset.sum_mul, Finset.sum_mul, trace_sum, Complex.re_sum, Finset.mul_sum]
    rw [Fin.sum_univ_eq_sum_range (fun a => (((suCoord T a A : ℂ) • tensGen (fun i : Fin (N * (N + 1) / 2) => symGen N i) (fun j => symGen N j)
      (Complex.I • T a)) * symRep (U 0) * F).trace.re)]
    refine (Finset.sum_subset (Finset.range_subset_range.2 hle) fun a ha hna => ?_).symm.trans (Finset.sum_congr rfl fun a _ => ?_)
    · rw [hc a (Finset.mem_range.1 ha) (by simpa using hna), Complex.ofReal_zero, zero_smul, zero_mul, zero_mul, trace_zero]
      rfl
    · rw [symGen_gen, smul_mul_assoc, smul_mul_assoc, trace_smul, smul_eq_mul, Complex.re_ofReal_mul, Matrix.mul_assoc]
      ring
  · intro g hg U hU h0
    have h1 := symRep_deriv hU.2
    rw [h0, (C91_sym (1 : Mat N) 1).2.1, mul_one, symGen_gen] at h1
    exact h1

/-- C91: for N = 2 the symmetric representation has the right force in every direction. -/
theorem C91_sym_force_two {T : ℕ → Mat 2} (hT : IsSuBasis T) (A : Mat 2) (hA : IsSuAlg A) : IsForceAlong symRep (symForce T) A :=
  (C91_sym_force_partial (by norm_num) hT).1 A hA (fun a ha hle => absurd ha (by omega)) (by norm_num)

/-- C91: the force of the antisymmetric representation is the derivative in the directions of the first N (N - 1) / 2 generators; the generator times `i` is minus
`represented_generator_I`. Missing: the other directions, see `C91_antisym_force_wrong`, and the sign, see `C91_antisym_generator_wrong`. -/
theorem C91_antisym_force_partial (hN : 0 < N) {T : ℕ → Mat N} (hT : IsSuBasis T) :
    (∀ A, IsSuAlg A → (∀ a < N * N - 1, N * (N - 1) / 2 ≤ a → suCoord T a A = 0) → IsForceAlong antiRep (antiForce T) A) ∧
      ∀ g < N * N - 1, IsRepresented antiRep (Complex.I • T g) (-antiGenI T g) := by
  have hle : N * (N - 1) / 2 ≤ N * N - 1 := anti_le hN
  constructor
  · intro A hA hc U hU F
    have h2 := ((antiRep_deriv hU.2).mul (MDeriv.const F)).trace
    refine h2.congr_deriv ?_
    unfold antiForce
    rw [force_pair hT _ hle, mul_zero, add_zero]
    conv_lhs => rw [su_complete hT hN hA.1 hA.2]
    rw [tensGen_sum, Finset.sum_mul, Finset.sum_mul, trace_sum, Complex.re_sum, Finset.mul_sum]
    rw [Fin.sum_univ_eq_sum_range (fun a => (((suCoord T a A : ℂ) • tensGen (fun i : Fin (N * (N - 1) / 2) => antiGen N i) (fun j => (antiGen N j)ᴴ)
      (Complex.I • T a)) * antiRep (U 0) * F).trace.re)]
    refine (Finset.sum_subset (Finset.range_subset_range.2 hle) fun a ha hna => ?_).symm.trans (Finset.sum_congr rfl fun a ha => ?_)
    · rw [hc a (Finset.mem_range.1 ha) (by simpa using hna), Complex.ofReal_zero, zero_smul, zero_mul, zero_mul, trace_zero]
      rfl
    · rw [antiGen_gen, ← antiGenI_conj (hT.herm a (lt_of_lt_of_le (Finset.mem_range.1 ha) hle)), smul_mul_assoc, smul_mul_assoc, trace_smul, smul_eq_mul,
        Complex.re_ofReal_mul, Matrix.mul_assoc]
      ring
  · intro g hg U hU h0
    have h1 := antiRep_deriv hU.2
    rw [h0, (C91_antisym (1 : Mat N) 1).2.1, mul_one, antiGen_gen] at h1
    exact h1

/-- C91 does not hold: for N ≥ 3 the force of the symmetric representation has no component along the last generator, although the action changes in that
direction. -/
theorem C91_sym_force_wrong (hN : 3 ≤ N) {T : ℕ → Mat N} (hT : IsSuBasis T) :
    IsSuAlg (Complex.I • T (N * N - 2)) ∧ ¬ IsForceAlong symRep (symForce T) (Complex.I • T (N * N - 2)) := by
  have hl : N * N - 2 < N * N - 1 := by have : 3 * 3 ≤ N * N := Nat.mul_le_mul hN hN; omega
  have hs : N * (N + 1) / 2 ≤ N * N - 2 := sym_le hN
  have hA := suAlg_gen hT hl
  refine ⟨hA, fun hF => ?_⟩
  set A := Complex.I • T (N * N - 2) with hAd
  set G := tensGen (fun i : Fin (N * (N + 1) / 2) => symGen N i) (fun j => symGen N j) A with hG
  obtain ⟨hU, h0⟩ := exp_suCurve hA
  have h1 := hF _ hU Gᴴ
  have h2 := ((symRep_deriv hU.2).mul (MDeriv.const Gᴴ)).trace
  simp only [h0, (C91_sym (1 : Mat N) 1).2.1, mul_one, one_mul, mul_zero, add_zero] at h1 h2
  have h3 := h1.unique h2
  unfold symForce at h3
  rw [force_pair hT _ (by omega), Finset.sum_eq_zero, mul_zero] at h3
  · have h4 : G = 0 := trace_mul_conj_zero (h3.symm)
    have h5 := sym_faithful h4
    exact gen_ne_zero hT hl h5
  · intro a ha
    rw [suCoord_gen hT (by have := Finset.mem_range.1 ha; omega) hl, if_neg (by have := Finset.mem_range.1 ha; omega), mul_zero]

/-- C91 does not hold: the same for the antisymmetric representation. -/
theorem C91_antisym_force_wrong (hN : 3 ≤ N) {T : ℕ → Mat N} (hT : IsSuBasis T) :
    IsSuAlg (Complex.I • T (N * N - 2)) ∧ ¬ IsForceAlong antiRep (antiForce T) (Complex.I • T (N * N - 2)) := by
  have hl : N * N - 2 < N * N - 1 := by have : 3 * 3 ≤ N * N := Nat.mul_le_mul hN hN; omega
  have hs : N * (N - 1) / 2 ≤ N * N - 2 := by
    have h1 := sym_le hN
    have h2 : N * (N - 1) ≤ N * (N + 1) := Nat.mul_le_mul le_rfl (by omega)
    omega
  have hA := suAlg_gen hT hl
  refine ⟨hA, fun hF => ?_⟩
  set A := Complex.I • T (N * N - 2) with hAd
  set G := tensGen (fun i : Fin (N * (N - 1) / 2) => antiGen N i) (fun j => (antiGen N j)ᴴ) A with hG
  obtain ⟨hU, h0⟩ := exp_suCurve hA
  have h1 := hF _ hU Gᴴ
  have h2 := ((antiRep_deriv hU.2).mul (MDeriv.const Gᴴ)).trace
  simp only [h0, (C91_antisym (1 : Mat N) 1).2.1, mul_one, one_mul, mul_zero, add_zero] at h1 h2
  have h3 := h1.unique h2
  unfold antiForce at h3
  rw [force_pair hT _ (by omega), Finset.sum_eq_zero, mul_zero] at h3
  · have h4 : G = 0 := trace_mul_conj_zero (h3.symm)
    have h5 := anti_faithful hN h4
    exact gen_ne_zero hT hl h5
  · intro a ha
    rw [suCoord_gen hT (by have := Finset.mem_range.1 ha; omega) hl, if_neg (by have := Finset.mem_range.1 ha; omega), mul_zero]

/-- C91 does not hold: for N ≥ 3 `represented_generator_I` of the antisymmetric representation is not the represented generator times `i`. -/
theorem C91_antisym_generator_wrong (hN : 3 ≤ N) {T : ℕ → Mat N} (hT : IsSuBasis T) {g : ℕ} (hg : g < N * N - 1) :
    ¬ IsRepresented antiRep (Complex.I • T g) (antiGenI T g) := by
  intro h
  obtain ⟨hU, h0⟩ := exp_suCurve (suAlg_gen hT hg)
  have h1 := h _ hU h0
  have h2 := (C91_antisym_force_partial (by omega) hT).2 g hg _ hU h0
  have h4 : antiGenI T g = 0 := by
    ext i j
    have := (h1 i j).unique (h2 i j)
    rw [Matrix.neg_apply] at this
    rw [Matrix.zero_apply]
    linear_combination this / 2
  have h5 : tensGen (fun i : Fin (N * (N - 1) / 2) => antiGen N i) (fun j => (antiGen N j)ᴴ) (Complex.I • T g) = 0 := by rw [antiGen_gen, h4, neg_zero]
  exact gen_ne_zero hT hg (anti_faithful hN h5)

/-! ### The hypotheses are met -/

/-- The hermitean generators of every SU(N) are a basis in the sense of the theorems. -/
example : IsSuBasis (hermGen 3) := hermGen_basis (by norm_num)

/-- A curve that is not constant. -/
example : ∃ U, SuCurve U (Complex.I • hermGen 3 7) ∧ U 0 = 1 ∧ Complex.I • hermGen 3 7 ≠ 0 :=
  ⟨_, (exp_suCurve (suAlg_gen (hermGen_basis (by norm_num)) (by norm_num))).1, (exp_suCurve (suAlg_gen (hermGen_basis (by norm_num)) (by norm_num))).2,
    gen_ne_zero (hermGen_basis (by norm_num)) (by norm_num)⟩

/-- A direction of the first generators of SU(3). -/
example : IsSuAlg (Complex.I • hermGen 3 0) ∧ ∀ a < 3 * 3 - 1, 3 * (3 - 1) / 2 ≤ a → suCoord (hermGen 3) a (Complex.I • hermGen 3 0) = 0 :=
  ⟨suAlg_gen (hermGen_basis (by norm_num)) (by norm_num), fun a ha h => by
    rw [suCoord_gen (hermGen_basis (by norm_num)) ha (by norm_num), if_neg (by omega)]⟩

end Hila
