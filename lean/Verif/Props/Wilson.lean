import Verif.Lemmas.Wilson

/-!
# C90: Wilson fermions

The spinors of libraries/datatypes/wilson_vector.h and the operators of libraries/dirac/wilson.h for two, three, four and five dimensions, any number of
colours and lattices of any size, with periodic and antiperiodic boundary conditions.
-/

namespace Hila

open Matrix

variable {n G H N : ℕ} {L : Fin n → ℕ}

/-! ### Specification -/

/-- The neighbour in the positive direction, with the sign of the boundary condition. -/
def wilUp (bc : Fin n → Bool) (f : WField L G N) (d : Fin n) (x : PSite L) : WVec G N :=
  if bc d = true ∧ (x d).val + 1 = L d then -f (x + Pi.single d 1) else f (x + Pi.single d 1)

/-- The neighbour in the negative direction, with the sign of the boundary condition. -/
def wilDown (bc : Fin n → Bool) (f : WField L G N) (d : Fin n) (x : PSite L) : WVec G N :=
  if bc d = true ∧ (x d).val = 0 then -f (x - Pi.single d 1) else f (x - Pi.single d 1)

/-- The Wilson operator `ψ(x) - κ Σ_d (U_d(x) (1 + s γ_d) ψ(x+d) + U_d†(x-d) (1 - s γ_d) ψ(x-d))` (s = 1, and s = -1 for the conjugate). -/
noncomputable def wilsonSpec (gamma : Fin n → WVec G N → WVec G N) (bc : Fin n → Bool) (U : GField L N) (kappa : ℝ) (s : ℤ) (psi : WField L G N)
    (x : PSite L) : WVec G N := fun i =>
  psi x i - (kappa : ℂ) • ∑ d, ((U d x).mulVec (wilUp bc (fun y => psi y + (s : ℂ) • gamma d (psi y)) d x i) +
    wilDown bc (fun y j => ((U d y)ᴴ).mulVec ((psi y - (s : ℂ) • gamma d (psi y)) j)) d x i)

/-- The scalar product of two fields. -/
noncomputable def wilDot [∀ d, NeZero (L d)] (chi psi : WField L G N) : ℂ := ∑ x, ∑ i, star (chi x i) ⬝ᵥ psi x i

/-! ### The spinors -/

/-- C90. The gamma matrices of the code are hermitean, anticommute, square to one and commute with colour matrices. -/
theorem C90_gamma {S : SpinCode n G H N} (hS : S.IsCode) (d : Fin n) :
    (∀ w, S.gamma d (S.gamma d w) = w) ∧
    (∀ e w, e ≠ d → S.gamma d (S.gamma e w) = -S.gamma e (S.gamma d w)) ∧
    (∀ v w : WVec G N, ∑ i, star (S.gamma d v i) ⬝ᵥ w i = ∑ i, star (v i) ⬝ᵥ S.gamma d w i) ∧
    (∀ (v w : WVec G N) (k : ℂ), S.gamma d (v + k • w) = S.gamma d v + k • S.gamma d w) ∧
    ∀ (M : Mat N) (w : WVec G N), S.gamma d (fun i => M.mulVec (w i)) = fun i => M.mulVec (S.gamma d w i) := by
  refine ⟨gamma_sq hS d, fun e w h => gamma_anti hS d e h.symm w, gamma_herm hS d, fun v w k => ?_, fun M w => gamma_colour hS d M w⟩
  rw [gamma_add hS, gamma_smul hS]

/-- C90. A half vector keeps exactly what `1 ± γ` keeps: expanding the projection gives `(1 ± γ) w`, projecting an expanded vector gives twice the half
vector, and colour matrices act on half vectors as on full vectors. -/
theorem C90_half {S : SpinCode n G H N} (hS : S.IsCode) (d : Fin n) (s : ℤ) (hs : s = 1 ∨ s = -1) :
    (∀ w, S.expand (S.proj w d s) d s = w + (s : ℂ) • S.gamma d w) ∧
    (∀ c, S.proj (S.expand c d s) d s = (2 : ℂ) • c) ∧
    ∀ (M : Mat N) (c : WVec H N), S.expand (fun i => M.mulVec (c i)) d s = fun i => M.mulVec (S.expand c d s i) :=
  ⟨expand_proj hS d s hs, proj_expand hS d s hs, fun M c => expand_colour hS d s M c⟩

/-- C90. `squarenorm` of the half vector is half the squared norm of `(1 ± γ) w`. -/
theorem C90_half_norm {S : SpinCode n G H N} (hS : S.IsCode) (d : Fin n) (s : ℤ) (hs : s = 1 ∨ s = -1) (w : WVec G N) :
    ∑ i, ∑ a, Complex.normSq ((w + (s : ℂ) • S.gamma d w) i a) = 2 * halfSquarenorm (S.proj w d s) := by
  rw [← expand_proj hS d s hs, expand_norm hS]

theorem halfSquarenorm_pos {c : WVec H N} (hc : c ≠ 0) : 0 < halfSquarenorm c := by
  rw [halfSquarenorm_eq]
  have h0 : ∀ i, 0 ≤ ∑ a, Complex.normSq (c i a) := fun i => Finset.sum_nonneg fun a _ => Complex.normSq_nonneg _
  refine lt_of_le_of_ne (Finset.sum_nonneg fun i _ => h0 i) fun h => hc ?_
  have h1 := (Finset.sum_eq_zero_iff_of_nonneg fun i _ => h0 i).1 h.symm
  funext i a
  have h2 := (Finset.sum_eq_zero_iff_of_nonneg fun a _ => Complex.normSq_nonneg (c i a)).1 (h1 i (Finset.mem_univ i)) a (Finset.mem_univ a)
  exact Complex.normSq_eq_zero.1 h2

/-- The half vector with all elements one. -/
def oneHalf (H N : ℕ) : WVec H N := fun _ _ => 1

theorem oneHalf_ne (hH : 0 < H) (hN : 0 < N) : oneHalf H N ≠ 0 := by
  intro h
  have := congrFun (congrFun h ⟨0, hH⟩) ⟨0, hN⟩
  exact one_ne_zero this

/-- C90. The comment at wilson_vector.h on `squarenorm` of half vectors says that it returns the squared norm of `(1 ± γ) w`, "thus the factor 2". The code
has no such factor. -/
theorem C90_half_norm_wrong {S : SpinCode n G H N} (hS : S.IsCode) (hN : 0 < N) (d : Fin n) (s : ℤ) (hs : s = 1 ∨ s = -1) :
    ∃ w, halfSquarenorm (S.proj w d s) ≠ ∑ i, ∑ a, Complex.normSq ((w + (s : ℂ) • S.gamma d w) i a) := by
  refine ⟨S.expand (oneHalf H N) d s, fun h => ?_⟩
  rw [C90_half_norm hS d s hs] at h
  have hp : S.proj (S.expand (oneHalf H N) d s) d s ≠ 0 := by
    rw [proj_expand hS d s hs]
    exact smul_ne_zero two_ne_zero (oneHalf_ne (code_pos hS) hN)
  linarith [halfSquarenorm_pos hp]

/-! ### The operator -/

theorem wilUp_eq (bc : Fin n → Bool) (f : WField L G N) (d : Fin n) (x : PSite L) : wilUp bc f d x = bcSign bc d x • f (x + unitStep d) :=
  fwdBc_smul bc f d x

theorem wilDown_eq [∀ d, NeZero (L d)] (bc : Fin n → Bool) (f : WField L G N) (d : Fin n) (x : PSite L) :
    wilDown bc f d x = bcSign bc d (x - unitStep d) • f (x - unitStep d) :=
  bwdBc_smul bc f d x

theorem wilsonSpec_eq [∀ d, NeZero (L d)] {S : SpinCode n G H N} (hS : S.IsCode) (bc : Fin n → Bool) (U : GField L N) (kappa : ℝ) (s : ℤ)
    (hs : s = 1 ∨ s = -1) (psi : WField L G N) (x : PSite L) :
    wilsonSpec S.gamma bc U kappa s psi x = psi x - (kappa : ℂ) • ∑ d, (
      bcSign bc d x • colourMul (U d x) (S.expand (S.proj (psi (x + unitStep d)) d s) d s) +
      bcSign bc d (x - unitStep d) • colourMul (U d (x - unitStep d))ᴴ (S.expand (S.proj (psi (x - unitStep d)) d (-s)) d (-s))) := by
  have hs' : -s = 1 ∨ -s = -1 := by omega
  funext i
  unfold wilsonSpec
  rw [Pi.sub_apply, Pi.smul_apply, Finset.sum_apply]
  congr 2
  refine Finset.sum_congr rfl fun d _ => ?_
  rw [Pi.add_apply, wilUp_eq, wilDown_eq, expand_proj hS d s hs, expand_proj hS d (-s) hs', Pi.smul_apply, Pi.smul_apply, Pi.smul_apply, mulVec_smul,
    Int.cast_neg, neg_smul, ← sub_eq_add_neg]
  rfl

theorem diracWilson_eq [∀ d, NeZero (L d)] {S : SpinCode n G H N} (hS : S.IsCode) (bc : Fin n → Bool) (tmp : Fin n → WField L H N) (U : GField L N)
    (kappa : ℝ) (s : ℤ) (psi out : WField L G N) (x : PSite L) :
    diracWilson S bc tmp U kappa s psi out x = psi x - (kappa : ℂ) • wHopAt S bc U s psi x := by
  unfold diracWilson
  rw [wilHop_eq hS (Or.inl rfl), if_pos (show VisitsPar .all x from trivial)]
  unfold assignOn
  rw [if_pos (show VisitsPar .all x from trivial)]

/-- C90. What the operators compute, whatever the temporary fields and the output field contained: the forward term is that of the Wilson operator, the
other term is the expansion of the same half vector with the other sign. Missing: the backward term, see `C90_apply_wrong`. -/
theorem C90_forward_partial [∀ d, NeZero (L d)] {S : SpinCode n G H N} (hS : S.IsCode) (bc : Fin n → Bool) (tmp : Fin n → WField L H N) (U : GField L N)
    (kappa : ℝ) (s : ℤ) (hs : s = 1 ∨ s = -1) (psi out : WField L G N) (x : PSite L) :
    diracWilson S bc tmp U kappa s psi out x = fun i => psi x i - (kappa : ℂ) • ∑ d, (
      (U d x).mulVec (wilUp bc (fun y => psi y + (s : ℂ) • S.gamma d (psi y)) d x i) +
      wilUp bc (fun y => S.expand (S.proj (psi y) d s) d (-s)) d x i) := by
  rw [diracWilson_eq hS]
  funext i
  rw [Pi.sub_apply, Pi.smul_apply]
  unfold wHopAt
  rw [Finset.sum_apply]
  congr 2
  refine Finset.sum_congr rfl fun d _ => ?_
  rw [wilUp_eq, wilUp_eq, ← expand_proj hS d s hs, smul_add, Pi.add_apply, Pi.smul_apply, Pi.smul_apply, Pi.smul_apply, mulVec_smul]
  rfl

/-- C90. The field that the code prepares for the negative direction (and never reads) does hold the backward term: read at the site below and expanded, it
is `U†(x-d) (1 - s γ) ψ(x-d)`. -/
theorem C90_back_field [∀ d, NeZero (L d)] {S : SpinCode n G H N} (hS : S.IsCode) {par : Parity} (hp : par = .all ∨ ∀ d, Even (L d)) (bc : Fin n → Bool)
    (tmp : Fin n → WField L H N) (U : GField L N) (psi : WField L G N) (s : ℤ) (hs : s = 1 ∨ s = -1) (d : Fin n) (x : PSite L) (hx : VisitsPar par x) :
    S.expand (bwdBc bc (wilTempBack S tmp U psi par s d) d x) d (-s) =
      wilDown bc (fun y j => ((U d y)ᴴ).mulVec ((psi y - (s : ℂ) • S.gamma d (psi y)) j)) d x := by
  have hs' : -s = 1 ∨ -s = -1 := by omega
  have h : wilTempBack S tmp U psi par s d (x - unitStep d) = colourMul (U d (x - unitStep d))ᴴ (S.proj (psi (x - unitStep d)) d (-s)) := by
    unfold wilTempBack assignOn
    rw [if_pos ((visits_bwd hp x d).2 hx)]
  rw [bwdBc_smul, h, half_expand_smul hS, expand_colour hS, expand_proj hS d (-s) hs', wilDown_eq, Int.cast_neg, neg_smul, ← sub_eq_add_neg]
  rfl

/-- A field that is zero except at one site. -/
noncomputable def pointSpinor [DecidableEq (PSite L)] (y : PSite L) (w : WVec G N) : WField L G N := fun x => if x = y then w else 0

theorem pointSpinor_self [DecidableEq (PSite L)] (y : PSite L) (w : WVec G N) : pointSpinor y w y = w := if_pos rfl

theorem pointSpinor_ne [DecidableEq (PSite L)] {x y : PSite L} (w : WVec G N) (h : x ≠ y) : pointSpinor y w x = 0 := if_neg h

theorem step_ne (hL : ∀ d, NeZero (L d)) {d : Fin n} (hd : 3 ≤ L d) (e : Fin n) : (unitStep d + unitStep e : PSite L) ≠ 0 := by
  intro h
  have h1 := congrFun h d
  haveI : Fact (1 < L d) := ⟨by omega⟩
  by_cases he : e = d
  · subst he
    have h2 : ((2 : ℕ) : ZMod (L e)) = 0 := by
      have : (1 : ZMod (L e)) + 1 = 0 := by simpa [unitStep] using h1
      rw [Nat.cast_two, ← this]; norm_num
    rw [ZMod.natCast_eq_zero_iff] at h2
    exact absurd (Nat.le_of_dvd (by norm_num) h2) (by omega)
  · have : (1 : ZMod (L d)) = 0 := by simpa [unitStep, Pi.single_eq_of_ne (Ne.symm he)] using h1
    exact one_ne_zero this

theorem step_inj {d e : Fin n} (hd : 2 ≤ L d) (h : (unitStep d : PSite L) = unitStep e) : e = d := by
  by_contra he
  have h1 := congrFun h d
  haveI : Fact (1 < L d) := ⟨by omega⟩
  have : (1 : ZMod (L d)) = 0 := by simpa [unitStep, Pi.single_eq_of_ne (Ne.symm he)] using h1
  exact one_ne_zero this

theorem step_ne_zero {d : Fin n} (hd : 2 ≤ L d) : (unitStep d : PSite L) ≠ 0 := by
  intro h
  have h1 := congrFun h d
  haveI : Fact (1 < L d) := ⟨by omega⟩
  have : (1 : ZMod (L d)) = 0 := by simpa [unitStep] using h1
  exact one_ne_zero this

theorem bcSign_ne (bc : Fin n → Bool) (d : Fin n) (x : PSite L) : bcSign bc d x ≠ 0 := by
  unfold bcSign
  split_ifs <;> norm_num

theorem unitary_colour_ne {M : Mat N} (hM : Mᴴ * M = 1) {w : WVec G N} (hw : w ≠ 0) : colourMul M w ≠ 0 := by
  intro h
  have h2 : colourMul Mᴴ (colourMul M w) = 0 := by rw [h, colourMul_zero]
  rw [colourMul_mul, hM, colourMul_one] at h2
  exact hw h2

/-- The value of the hopping term of a point field at the site below the point. -/
theorem hop_point_below [∀ d, NeZero (L d)] {S : SpinCode n G H N} (hS : S.IsCode) (bc : Fin n → Bool) (U : GField L N) (s : ℤ) (z : PSite L)
    (w : WVec G N) {d : Fin n} (hd : 2 ≤ L d) : wHopAt S bc U s (pointSpinor (z + unitStep d) w) z =
      bcSign bc d z • (colourMul (U d z) (S.expand (S.proj w d s) d s) + S.expand (S.proj w d s) d (-s)) := by
  unfold wHopAt
  rw [Finset.sum_eq_single d]
  · unfold pointSpinor
    rw [if_pos rfl]
  · intro e _ he
    unfold pointSpinor
    rw [if_neg fun h => he (step_inj hd (add_left_cancel h).symm), proj_zero hS, expand_zero hS, expand_zero hS, colourMul_zero, add_zero, smul_zero]
  · intro h
    exact absurd (Finset.mem_univ d) h

/-- The hopping term of a point field vanishes at the site above the point. -/
theorem hop_point_above [∀ d, NeZero (L d)] {S : SpinCode n G H N} (hS : S.IsCode) (bc : Fin n → Bool) (U : GField L N) (s : ℤ) (z : PSite L)
    (w : WVec G N) {d : Fin n} (hd : 3 ≤ L d) : wHopAt S bc U s (pointSpinor z w) (z + unitStep d) = 0 := by
  unfold wHopAt
  refine Finset.sum_eq_zero fun e _ => ?_
  unfold pointSpinor
  rw [if_neg, proj_zero hS, expand_zero hS, expand_zero hS, colourMul_zero, add_zero, smul_zero]
  rw [add_assoc]
  intro h
  exact step_ne (fun d => inferInstance) hd e (add_eq_left.1 h)

/-- C90. The operators are not the Wilson operators: the second term of the hopping loops (wilson.h:44-48, 81-92) reads `vtemp[dir][X + dir]` where the
backward term is `vtemp[-dir][X - dir]`. A source at one site has no effect at the site above it. -/
theorem C90_apply_wrong [∀ d, NeZero (L d)] {S : SpinCode n G H N} (hS : S.IsCode) (hN : 0 < N) (bc : Fin n → Bool) (tmp : Fin n → WField L H N)
    (U : GField L N) (hU : ∀ d x, U d x * (U d x)ᴴ = 1) (kappa : ℝ) (hk : kappa ≠ 0) (s : ℤ) (hs : s = 1 ∨ s = -1) (out : WField L G N)
    (d : Fin n) (hd : 3 ≤ L d) :
    ∃ psi x, diracWilson S bc tmp U kappa s psi out x ≠ wilsonSpec S.gamma bc U kappa s psi x := by
  have hs' : -s = 1 ∨ -s = -1 := by omega
  refine ⟨pointSpinor 0 (S.expand (oneHalf H N) d (-s)), 0 + unitStep d, ?_⟩
  rw [diracWilson_eq hS, hop_point_above hS bc U s 0 _ hd, smul_zero, sub_zero, wilsonSpec_eq hS bc U kappa s hs]
  intro h
  have h0 := sub_eq_self.1 h.symm
  have h1 := (smul_eq_zero.1 h0).resolve_left (by exact_mod_cast hk)
  have hne := expand_ne_zero hS d (-s) hs' (oneHalf H N) (oneHalf_ne (code_pos hS) hN)
  rw [Finset.sum_eq_single d] at h1
  · rw [pointSpinor_ne, proj_zero hS, expand_zero hS, colourMul_zero, smul_zero, zero_add, add_sub_cancel_right, pointSpinor_self,
      proj_expand hS d (-s) hs', half_expand_smul hS] at h1
    · refine unitary_colour_ne ?_ (smul_ne_zero two_ne_zero hne) ((smul_eq_zero.1 h1).resolve_left (bcSign_ne _ _ _))
      rw [conjTranspose_conjTranspose]
      exact hU _ _
    · rw [add_assoc]
      exact fun h => step_ne (fun d => inferInstance) hd d (add_eq_left.1 h)
  · intro e _ he
    rw [pointSpinor_ne, pointSpinor_ne, proj_zero hS, proj_zero hS, expand_zero hS, expand_zero hS, colourMul_zero, colourMul_zero, smul_zero, smul_zero, zero_add]
    · intro h
      rw [add_sub_assoc, add_eq_left, sub_eq_zero] at h
      exact he (step_inj (by omega) h)
    · rw [add_assoc]
      exact fun h => step_ne (fun d => inferInstance) hd e (add_eq_left.1 h)
  · exact fun h => absurd (Finset.mem_univ d) h

/-- The values of the operator below a point source are not zero. -/
theorem hop_point_val_ne {S : SpinCode n G H N} (hS : S.IsCode) (M : Mat N) (d : Fin n) (s : ℤ) (hs : s = 1 ∨ s = -1) {c : WVec H N} (hc : c ≠ 0) :
    colourMul M (S.expand c d s) + S.expand c d (-s) ≠ 0 := by
  have hs' : -s = 1 ∨ -s = -1 := by omega
  intro h
  have g1 := gamma_expand hS d s hs c
  have g2 := gamma_expand hS d (-s) hs' c
  have h2 := congrArg (fun w => (s : ℂ) • S.gamma d w) h
  have hz : S.gamma d (0 : WVec G N) = 0 := by
    have := gamma_smul hS d 0 (0 : WVec G N)
    rwa [zero_smul, zero_smul] at this
  have hc1 : S.gamma d (colourMul M (S.expand c d s)) = colourMul M (S.gamma d (S.expand c d s)) := gamma_colour hS d M _
  simp only [gamma_add hS, hz, smul_add, smul_zero, hc1, ← colourMul_smul, g1] at h2
  rw [Int.cast_neg, neg_smul, neg_eq_iff_eq_neg] at g2
  rw [g2, ← sub_eq_add_neg, sub_eq_zero] at h2
  rw [h2, ← two_smul ℂ] at h
  exact expand_ne_zero hS d (-s) hs' c hc ((smul_eq_zero.1 h).resolve_left two_ne_zero)

theorem selfdot_ne {w : WVec G N} (hw : w ≠ 0) : ∑ i, star (w i) ⬝ᵥ w i ≠ 0 := by
  have e : ∑ i, star (w i) ⬝ᵥ w i = ((halfSquarenorm w : ℝ) : ℂ) := by
    rw [halfSquarenorm_eq, Complex.ofReal_sum]
    refine Finset.sum_congr rfl fun i _ => ?_
    rw [Complex.ofReal_sum]
    refine Finset.sum_congr rfl fun a _ => ?_
    rw [Pi.star_apply, Complex.star_def, Complex.normSq_eq_conj_mul_self]
  rw [e]
  exact_mod_cast (halfSquarenorm_pos hw).ne'

theorem wilDot_point_left [∀ d, NeZero (L d)] (y : PSite L) (q : WVec G N) (f : WField L G N) :
    wilDot (pointSpinor y q) f = ∑ i, star (q i) ⬝ᵥ f y i := by
  unfold wilDot
  rw [Finset.sum_eq_single y]
  · rw [pointSpinor_self]
  · intro x _ hx
    rw [pointSpinor_ne _ hx]
    simp
  · exact fun h => absurd (Finset.mem_univ y) h

theorem wilDot_point_right [∀ d, NeZero (L d)] (y : PSite L) (q : WVec G N) (f : WField L G N) :
    wilDot f (pointSpinor y q) = ∑ i, star (f y i) ⬝ᵥ q i := by
  unfold wilDot
  rw [Finset.sum_eq_single y]
  · rw [pointSpinor_self]
  · intro x _ hx
    rw [pointSpinor_ne _ hx]
    simp
  · exact fun h => absurd (Finset.mem_univ y) h

/-- C90. `dagger` is not the adjoint of `apply`, for any links: a point source has an effect at the site below under `apply`, but the conjugate has none at
the site above. -/
theorem C90_dagger_wrong [∀ d, NeZero (L d)] {S : SpinCode n G H N} (hS : S.IsCode) (hN : 0 < N) (bc : Fin n → Bool) (tmp tmp' : Fin n → WField L H N)
    (U : GField L N) (kappa : ℝ) (hk : kappa ≠ 0) (out out' : WField L G N) (d : Fin n) (hd : 3 ≤ L d) :
    ∃ chi psi, wilDot chi (diracWilson S bc tmp U kappa 1 psi out) ≠ wilDot (diracWilson S bc tmp' U kappa (-1) chi out') psi := by
  have hz : (0 : PSite L) ≠ 0 + unitStep d := fun h => step_ne_zero (L := L) (d := d) (by omega) (left_eq_add.1 h)
  set w := S.expand (oneHalf H N) d 1
  set q := colourMul (U d 0) (S.expand (S.proj w d 1) d 1) + S.expand (S.proj w d 1) d (-1) with hq
  have hqn : q ≠ 0 := by
    refine hop_point_val_ne hS (U d 0) d 1 (Or.inl rfl) ?_
    rw [proj_expand hS d 1 (Or.inl rfl)]
    exact smul_ne_zero two_ne_zero (oneHalf_ne (code_pos hS) hN)
  refine ⟨pointSpinor 0 q, pointSpinor (0 + unitStep d) w, ?_⟩
  rw [wilDot_point_left, wilDot_point_right, diracWilson_eq hS, diracWilson_eq hS, hop_point_above hS bc U (-1) 0 _ hd,
    hop_point_below hS bc U 1 0 w (show 2 ≤ L d by omega), pointSpinor_ne _ hz, pointSpinor_ne _ hz.symm, ← hq]
  have e1 : ∑ i, star (((0 : WVec G N) - (kappa : ℂ) • (0 : WVec G N)) i) ⬝ᵥ w i = 0 := by simp
  have e2 : ∑ i, star (q i) ⬝ᵥ ((0 : WVec G N) - (kappa : ℂ) • bcSign bc d (0 : PSite L) • q) i =
      -((kappa : ℂ) * bcSign bc d (0 : PSite L)) * ∑ i, star (q i) ⬝ᵥ q i := by
    rw [Finset.mul_sum]
    refine Finset.sum_congr rfl fun i _ => ?_
    rw [zero_sub, Pi.neg_apply, Pi.smul_apply, Pi.smul_apply, dotProduct_neg, dotProduct_smul, dotProduct_smul, smul_eq_mul, smul_eq_mul]
    ring
  rw [e1, e2]
  refine mul_ne_zero (neg_ne_zero.2 (mul_ne_zero (by exact_mod_cast hk) (bcSign_ne _ _ _))) (selfdot_ne hqn)

/-- C90. The operator is not gauge covariant, for any links: its second term contains no link. -/
theorem C90_covariance_wrong [∀ d, NeZero (L d)] {S : SpinCode n G H N} (hS : S.IsCode) (hN : 0 < N) (bc : Fin n → Bool) (tmp tmp' : Fin n → WField L H N)
    (U : GField L N) (kappa : ℝ) (hk : kappa ≠ 0) (s : ℤ) (hs : s = 1 ∨ s = -1) (out out' : WField L G N) (d : Fin n) (hd : 3 ≤ L d) :
    ∃ (g : PSite L → Mat N) (psi : WField L G N) (x : PSite L), (∀ y, g y * (g y)ᴴ = 1) ∧
      diracWilson S bc tmp (fun e y => g y * U e y * (g (y + Pi.single e 1))ᴴ) kappa s (fun y i => (g y).mulVec (psi y i)) out x ≠
        fun i => (g x).mulVec (diracWilson S bc tmp' U kappa s psi out' x i) := by
  have hs' : -s = 1 ∨ -s = -1 := by omega
  have hz : (0 : PSite L) ≠ 0 + unitStep d := fun h => step_ne_zero (L := L) (d := d) (by omega) (left_eq_add.1 h)
  set w := S.expand (oneHalf H N) d s
  let g : PSite L → Mat N := fun y => if y = 0 then -1 else 1
  have g0 : g 0 = -1 := if_pos rfl
  have g1 : ∀ y, y ≠ 0 → g y = 1 := fun y hy => if_neg hy
  refine ⟨g, pointSpinor (0 + unitStep d) w, 0, ?_, ?_⟩
  · intro y
    by_cases hy : y = 0
    · rw [hy, g0]; simp
    · rw [g1 y hy]; simp
  · have e1 : (fun y i => (g y).mulVec (pointSpinor (0 + unitStep d) w y i)) = pointSpinor (L := L) (0 + unitStep d) w := by
      funext y i
      by_cases hy : y = 0
      · rw [hy, pointSpinor_ne _ hz]; exact mulVec_zero _
      · rw [g1 y hy, one_mulVec]
    have e2 : (fun i => (g 0).mulVec (diracWilson S bc tmp' U kappa s (pointSpinor (0 + unitStep d) w) out' 0 i)) =
        -diracWilson S bc tmp' U kappa s (pointSpinor (0 + unitStep d) w) out' 0 := by
      funext i
      rw [g0, neg_mulVec, one_mulVec]; rfl
    have e3 : g 0 * U d 0 * (g (0 + Pi.single d 1))ᴴ = -U d 0 := by
      have : g (0 + Pi.single d 1) = 1 := g1 _ hz.symm
      rw [g0, this, conjTranspose_one, mul_one, neg_one_mul]
    rw [e1, e2, diracWilson_eq hS, diracWilson_eq hS, hop_point_below hS bc _ s 0 w (show 2 ≤ L d by omega),
      hop_point_below hS bc U s 0 w (show 2 ≤ L d by omega), pointSpinor_ne _ hz, zero_sub, zero_sub, neg_neg]
    rw [e3]
    intro h
    rw [← smul_neg, ← smul_neg] at h
    have h1 := smul_right_injective _ (bcSign_ne bc d 0) (smul_right_injective _ (show (kappa : ℂ) ≠ 0 by exact_mod_cast hk) h)
    have e4 : colourMul (-U d 0) (S.expand (S.proj w d s) d s) = -colourMul (U d 0) (S.expand (S.proj w d s) d s) := by
      funext i
      exact neg_mulVec _ _
    rw [e4, neg_add, neg_neg, add_right_inj] at h1
    have hne : S.expand (S.proj w d s) d (-s) ≠ 0 := by
      refine expand_ne_zero hS d (-s) hs' _ ?_
      rw [proj_expand hS d s hs]
      exact smul_ne_zero two_ne_zero (oneHalf_ne (code_pos hS) hN)
    exact hne (self_eq_neg.1 h1.symm)

/-! ### The even-odd operator -/

theorem hop_neg [∀ d, NeZero (L d)] {S : SpinCode n G H N} (hS : S.IsCode) (bc : Fin n → Bool) (U : GField L N) (s : ℤ) (f g : WField L G N) (x : PSite L)
    (h : ∀ d, f (x + unitStep d) = -g (x + unitStep d)) : wHopAt S bc U s f x = -wHopAt S bc U s g x := by
  unfold wHopAt
  rw [← Finset.sum_neg_distrib]
  refine Finset.sum_congr rfl fun d _ => ?_
  rw [h d, ← neg_one_smul ℂ (g _), proj_smul hS, half_expand_smul hS, half_expand_smul hS, colourMul_smul, ← smul_add, smul_comm, neg_one_smul]

/-- C90. The even-odd operator agrees with the full operator of the code: if the full operator gives zero on the odd sites of `ψ` then both give the same on
the even sites, and the even-odd operator gives zero on the odd sites. -/
theorem C90_evenodd [∀ d, NeZero (L d)] {S : SpinCode n G H N} (hS : S.IsCode) (hL : ∀ d, Even (L d)) (bc : Fin n → Bool)
    (tmp tmp1 tmp2 : Fin n → WField L H N) (U : GField L N) (kappa : ℝ) (s : ℤ) (psi out out' : WField L G N)
    (h0 : ∀ x, VisitsPar .odd x → diracWilson S bc tmp U kappa s psi out x = 0) (x : PSite L) :
    (VisitsPar .even x → diracWilsonEO S bc tmp1 tmp2 U kappa s psi out' x = diracWilson S bc tmp U kappa s psi out x) ∧
    (VisitsPar .odd x → diracWilsonEO S bc tmp1 tmp2 U kappa s psi out' x = 0) := by
  have hp : ∀ {p : Parity}, p = .all ∨ ∀ d, Even (L d) := Or.inr hL
  have hodd : ∀ y, VisitsPar .odd y → (kappa : ℂ) • wHopAt S bc U s psi y = psi y := by
    intro y hy
    have := h0 y hy
    rw [diracWilson_eq hS, sub_eq_zero] at this
    exact this.symm
  constructor
  · intro hx
    have hxo : ¬VisitsPar .odd x := by
      intro h
      have h1 : (∑ d, (x d).val) % 2 = 0 := hx
      have h2 : (∑ d, (x d).val) % 2 = 1 := h
      omega
    unfold diracWilsonEO
    unfold assignOn
    rw [if_neg hxo, wilHop_eq hS hp, if_pos hx, wilHopSet_eq hS hp, if_neg hxo, if_pos hx, diracWilson_eq hS]
    congr 1
    have hn : wHopAt S bc U s (wilHopSet S bc tmp1 U kappa psi (fun x => if VisitsPar .even x then psi x else out' x) .odd s) x = -wHopAt S bc U s psi x := by
      refine hop_neg hS bc U s _ _ x fun d => ?_
      have hd : VisitsPar .odd (x + unitStep d) := (visits_fwd (par := .even) hp x d).2 hx
      rw [wilHopSet_eq hS hp, if_pos hd, hodd _ hd]
    rw [Complex.ofReal_neg, neg_smul]
    refine (congrArg (fun w => -((kappa : ℂ) • w)) hn).trans ?_
    rw [smul_neg, neg_neg]
  · intro hx
    unfold diracWilsonEO
    unfold assignOn
    rw [if_pos hx]

/-- The hypothesis of `C90_evenodd` can be met with any values at the even sites. -/
theorem C90_evenodd_source [∀ d, NeZero (L d)] {S : SpinCode n G H N} (hS : S.IsCode) (hL : ∀ d, Even (L d)) (bc : Fin n → Bool)
    (tmp : Fin n → WField L H N) (U : GField L N) (kappa : ℝ) (s : ℤ) (phi out : WField L G N) :
    ∃ psi, (∀ x, VisitsPar .even x → psi x = phi x) ∧ ∀ x, VisitsPar .odd x → diracWilson S bc tmp U kappa s psi out x = 0 := by
  refine ⟨assignOn .odd phi fun x => (kappa : ℂ) • wHopAt S bc U s phi x, fun x hx => ?_, fun x hx => ?_⟩
  · have hxo : ¬VisitsPar .odd x := by
      intro h
      have h1 : (∑ d, (x d).val) % 2 = 0 := hx
      have h2 : (∑ d, (x d).val) % 2 = 1 := h
      omega
    unfold assignOn
    rw [if_neg hxo]
  · rw [diracWilson_eq hS]
    have hh : wHopAt S bc U s (assignOn .odd phi fun x => (kappa : ℂ) • wHopAt S bc U s phi x) x = wHopAt S bc U s phi x := by
      unfold wHopAt
      refine Finset.sum_congr rfl fun d _ => ?_
      have hd : ¬VisitsPar .odd (x + unitStep d) := by
        intro h
        have h1 : (∑ e, ((x + unitStep d : PSite L) e).val) % 2 = 0 := (visits_fwd (par := .odd) (Or.inr hL) x d).2 hx
        have h2 : (∑ e, ((x + unitStep d : PSite L) e).val) % 2 = 1 := h
        omega
      unfold assignOn
      rw [if_neg hd]
    rw [hh]
    unfold assignOn
    rw [if_pos hx, sub_self]

/-! ### The force -/

theorem proj_herm {S : SpinCode n G H N} (hS : S.IsCode) (d : Fin n) (s : ℤ) (hs : s = 1 ∨ s = -1) (v w : WVec G N) :
    ∑ i, star (S.expand (S.proj v d s) d s i) ⬝ᵥ w i = ∑ i, star (v i) ⬝ᵥ S.expand (S.proj w d s) d s i := by
  rw [expand_proj hS d s hs, expand_proj hS d s hs]
  simp only [Pi.add_apply, star_add, add_dotProduct, dotProduct_add, Finset.sum_add_distrib, Pi.smul_apply, star_smul, smul_dotProduct, dotProduct_smul,
    ← Finset.smul_sum, gamma_herm hS]
  congr 2
  simp

theorem wilOuter_eq (a b : WVec G N) : wilOuter a b = ∑ i, outerP (a i) (b i) := by
  have h : ∀ (l : List (Fin G)) (r : Mat N), l.foldl (fun r i => r + outerP (a i) (b i)) r = r + (l.map fun i => outerP (a i) (b i)).sum := by
    intro l
    induction l with
    | nil => intro r; simp
    | cons i l ih => intro r; rw [List.foldl_cons, ih, List.map_cons, List.sum_cons, add_assoc]
  unfold wilOuter
  rw [h, zero_add, ← List.ofFn_eq_map, List.sum_ofFn]

theorem trace_outer (X : Mat N) (a b : WVec G N) : (X * wilOuter a b).trace = ∑ i, star (b i) ⬝ᵥ colourMul X a i := by
  rw [wilOuter_eq, Finset.mul_sum, trace_sum]
  refine Finset.sum_congr rfl fun i _ => ?_
  unfold outerP colourMul trace dotProduct mulVec
  simp only [diag_apply, mul_apply, of_apply, dotProduct, Finset.mul_sum]
  refine Finset.sum_congr rfl fun j _ => Finset.sum_congr rfl fun k _ => ?_
  rw [Pi.star_apply]
  ring

theorem colour_adj {s : ℕ} (X : Mat N) (v w : WVec s N) : star (∑ i, star (v i) ⬝ᵥ colourMul Xᴴ w i) = ∑ i, star (w i) ⬝ᵥ colourMul X v i := by
  rw [star_sum]
  refine Finset.sum_congr rfl fun i _ => ?_
  unfold colourMul
  rw [star_dotProduct, star_mulVec, conjTranspose_conjTranspose, dotProduct_mulVec, star_star]

/-- C90. The force of the full operator (wilson.h:108-138) is the derivative of `Re ⟨χ, D ψ⟩` for the Wilson operator `D` with respect to the links, which is
linear in the links. (`D` is not the operator that `apply` computes.) -/
theorem C90_force [∀ d, NeZero (L d)] {S : SpinCode n G H N} (hS : S.IsCode) (bc : Fin n → Bool) (tmp0 tmp1 : WField L H N) (U X : GField L N) (kappa : ℝ)
    (s : ℤ) (hs : s = 1 ∨ s = -1) (chi psi : WField L G N) :
    (wilDot chi (wilsonSpec S.gamma bc (U + X) kappa s psi)).re - (wilDot chi (wilsonSpec S.gamma bc U kappa s psi)).re =
      ∑ d, ∑ x, (X d x * wilForce S bc tmp0 tmp1 kappa chi psi .all s d x).trace.re := by
  have hs' : -s = 1 ∨ -s = -1 := by omega
  have hf : ∀ d x, (X d x * wilForce S bc tmp0 tmp1 kappa chi psi .all s d x).trace =
      -(kappa : ℂ) * bcSign bc d x * (∑ i, star (psi x i) ⬝ᵥ colourMul (X d x) (S.expand (S.proj (chi (x + unitStep d)) d (-s)) d (-s)) i +
        ∑ i, star (chi x i) ⬝ᵥ colourMul (X d x) (S.expand (S.proj (psi (x + unitStep d)) d s) d s) i) := by
    intro d x
    have ha : ∀ y : PSite L, VisitsPar .all y := fun y => trivial
    have hf0 : wilForce S bc tmp0 tmp1 kappa chi psi .all s d x =
        (-kappa : ℂ) • wilOuter (S.expand (fwdBc bc (fun x => S.proj (chi x) d (-s)) d x) d (-s)) (psi x) -
          (kappa : ℂ) • wilOuter (S.expand (fwdBc bc (fun x => S.proj (psi x) d s) d x) d s) (chi x) := by
      unfold wilForce assignOn
      have ho : oppParity .all = .all := rfl
      simp only [ho, ha, if_true]
    rw [hf0, mul_sub, trace_sub, mul_smul_comm, mul_smul_comm, trace_smul, trace_smul, trace_outer, trace_outer, fwdBc_smul, fwdBc_smul, half_expand_smul hS,
      half_expand_smul hS, colourMul_smul, colourMul_smul]
    simp only [Pi.smul_apply, dotProduct_smul, smul_eq_mul, ← Finset.mul_sum]
    ring
  have hd : ∀ V : GField L N, (wilDot chi (wilsonSpec S.gamma bc V kappa s psi)).re = (wilDot chi psi).re + ∑ d, ∑ x, -kappa * (
      (bcSign bc d x * ∑ i, star (psi x i) ⬝ᵥ colourMul (V d x) (S.expand (S.proj (chi (x + unitStep d)) d (-s)) d (-s)) i) +
      (bcSign bc d x * ∑ i, star (chi x i) ⬝ᵥ colourMul (V d x) (S.expand (S.proj (psi (x + unitStep d)) d s) d s) i)).re := by
    intro V
    have h1 : wilDot chi (wilsonSpec S.gamma bc V kappa s psi) = wilDot chi psi + ∑ d, ∑ x, -(kappa : ℂ) * (
        (bcSign bc d x * ∑ i, star (chi x i) ⬝ᵥ colourMul (V d x) (S.expand (S.proj (psi (x + unitStep d)) d s) d s) i) +
        bcSign bc d (x - unitStep d) * ∑ i, star (chi x i) ⬝ᵥ
          colourMul (V d (x - unitStep d))ᴴ (S.expand (S.proj (psi (x - unitStep d)) d (-s)) d (-s)) i) := by
      unfold wilDot
      rw [Finset.sum_comm (f := fun d x => -(kappa : ℂ) * _), ← Finset.sum_add_distrib]
      refine Finset.sum_congr rfl fun x _ => ?_
      rw [wilsonSpec_eq hS bc V kappa s hs]
      simp only [Pi.sub_apply, dotProduct_sub, Finset.sum_sub_distrib, Pi.smul_apply, dotProduct_smul, Finset.sum_apply, dotProduct_sum, Pi.add_apply,
        dotProduct_add, smul_eq_mul]
      rw [sub_eq_add_neg, ← Finset.mul_sum, Finset.sum_comm, ← neg_mul, Finset.mul_sum]
      congr 1
      refine Finset.sum_congr rfl fun d _ => ?_
      rw [Finset.sum_add_distrib, ← Finset.mul_sum, ← Finset.mul_sum]
    rw [h1, Complex.add_re, Complex.re_sum]
    congr 1
    refine Finset.sum_congr rfl fun d _ => ?_
    rw [Complex.re_sum]
    simp only [mul_add, Complex.add_re, Finset.sum_add_distrib]
    rw [add_comm]
    congr 1
    · rw [← Equiv.sum_comp (Equiv.addRight (unitStep d : PSite L))]
      refine Finset.sum_congr rfl fun x _ => ?_
      rw [Equiv.coe_addRight, add_sub_cancel_right, ← Complex.ofReal_neg, Complex.re_ofReal_mul]
      congr 1
      have key : ∑ i, star (psi x i) ⬝ᵥ colourMul (V d x) (S.expand (S.proj (chi (x + unitStep d)) d (-s)) d (-s)) i =
          star (∑ i, star (chi (x + unitStep d) i) ⬝ᵥ colourMul (V d x)ᴴ (S.expand (S.proj (psi x) d (-s)) d (-s)) i) := by
        rw [colour_adj, proj_herm hS d (-s) hs', expand_proj hS d (-s) hs', expand_proj hS d (-s) hs', gamma_colour hS, colourMul_add, colourMul_smul]
      have hb : (starRingEnd ℂ) (bcSign bc d x) = bcSign bc d x := bcSign_star bc d x
      rw [key, ← bcSign_star, ← star_mul', Complex.star_def, Complex.conj_re, hb]
    · refine Finset.sum_congr rfl fun x _ => ?_
      rw [← Complex.ofReal_neg, Complex.re_ofReal_mul]
  rw [hd, hd, add_sub_add_left_eq_sub, ← Finset.sum_sub_distrib]
  refine Finset.sum_congr rfl fun d _ => ?_
  rw [← Finset.sum_sub_distrib]
  refine Finset.sum_congr rfl fun x _ => ?_
  have hadd : ∀ v : WVec G N, colourMul ((U + X) d x) v = colourMul (U d x) v + colourMul (X d x) v := by
    intro v
    funext i
    exact add_mulVec _ _ _
  rw [hf, hadd, hadd, mul_assoc, ← Complex.ofReal_neg, Complex.re_ofReal_mul, ← mul_sub, ← Complex.sub_re]
  congr 2
  simp only [Pi.add_apply, dotProduct_add, Finset.sum_add_distrib]
  ring

/-! ### Concrete cases -/

/-- Four dimensions, three colours, a lattice of four sites in each direction, antiperiodic in the last direction. -/
example : ∃ psi x, diracWilson (L := fun _ : Fin 4 => 4) (spin4 3) (fun d => d = 3) (fun _ _ => 0) (fun _ _ => 1) 0.1 1 psi (fun _ => 0) x ≠
    wilsonSpec (spin4 3).gamma (fun d => d = 3) (fun _ _ => 1) 0.1 1 psi x :=
  C90_apply_wrong .four (by norm_num) _ _ _ (fun _ _ => by simp) 0.1 (by norm_num) 1 (Or.inl rfl) _ 0 (by norm_num)

example (w : WVec 4 3) : (spin4 3).gamma 0 ((spin4 3).gamma 1 w) = -(spin4 3).gamma 1 ((spin4 3).gamma 0 w) :=
  (C90_gamma (S := spin4 3) .four 0).2.1 1 w (by decide)

example : ∃ w : WVec 2 3, halfSquarenorm ((spin2 3).proj w 0 1) ≠ ∑ i, ∑ a, Complex.normSq ((w + ((1 : ℤ) : ℂ) • (spin2 3).gamma 0 w) i a) :=
  C90_half_norm_wrong .two (by norm_num) 0 1 (Or.inl rfl)

/-- The force on a lattice of `4 × 4` sites, one colour. -/
example (chi psi : WField (fun _ : Fin 2 => 4) 2 1) (X : GField (fun _ : Fin 2 => 4) 1) :=
  C90_force (S := spin2 1) .two (fun _ => false) (fun _ => 0) (fun _ => 0) (fun _ _ => 1) X 0.1 1 (Or.inl rfl) chi psi

example (phi : WField (fun _ : Fin 3 => 4) 2 2) (U : GField (fun _ : Fin 3 => 4) 2) : ∃ psi, (∀ x, VisitsPar .even x → psi x = phi x) ∧
    ∀ x, VisitsPar .even x → diracWilsonEO (spin3 2) (fun _ => true) (fun _ _ => 0) (fun _ _ => 0) U 0.1 1 psi (fun _ => 0) x =
      diracWilson (spin3 2) (fun _ => true) (fun _ _ => 0) U 0.1 1 psi (fun _ => 0) x := by
  obtain ⟨psi, h1, h2⟩ := C90_evenodd_source (S := spin3 2) .three (L := fun _ => 4) (fun _ => by decide) (fun _ => true) (fun _ _ => 0) U 0.1 1 phi
    (fun _ => 0)
  exact ⟨psi, h1, fun x hx => (C90_evenodd .three (fun _ => by decide) _ _ _ _ U 0.1 1 psi _ _ h2 x).1 hx⟩

end Hila
