import Verif.Model.CsFlow
import Verif.Lemmas.GradFlowInt
import Mathlib.LinearAlgebra.Matrix.Permutation

/-!
# Lemmas for the flow at constant action
-/

set_option linter.unusedSectionVars false

namespace Hila

open Matrix

variable {n : ℕ} {L : Fin n → ℕ} {N : ℕ}

/-! ### The direction at one link -/

theorem alg_dot_eq (a b : Alg N) : a.dot b = sdot a b / 2 := by
  unfold Alg.dot sdot
  norm_num
  ring

theorem sdot_nonneg' (a : Alg N) : 0 ≤ sdot a a := Finset.sum_nonneg fun _ _ => mul_self_nonneg _

theorem sdot_self_pos {a : Alg N} (h : a ≠ 0) : 0 < sdot a a := by
  refine lt_of_le_of_ne (sdot_nonneg' a) fun h0 => h ?_
  funext k
  have := (Finset.sum_eq_zero_iff_of_nonneg fun k _ => mul_self_nonneg (a k)).1 h0.symm k (Finset.mem_univ k)
  exact mul_self_eq_zero.1 this

theorem sdot_sub_smul (a b c : Alg N) (s : ℝ) : sdot a (b - s • c) = sdot a b - s * sdot a c := by
  unfold sdot
  rw [Finset.mul_sum, ← Finset.sum_sub_distrib]
  refine Finset.sum_congr rfl fun k _ => ?_
  simp only [Pi.sub_apply, Pi.smul_apply, smul_eq_mul]
  ring

theorem sdot_smul (s : ℝ) (a b : Alg N) : sdot a (s • b) = s * sdot a b := by
  unfold sdot
  rw [Finset.mul_sum]
  refine Finset.sum_congr rfl fun k _ => ?_
  simp only [Pi.smul_apply, smul_eq_mul]
  ring

theorem sdot_symm (a b : Alg N) : sdot a b = sdot b a := by
  unfold sdot
  exact Finset.sum_congr rfl fun k _ => mul_comm _ _

theorem half_norm_sq (a : Alg N) : (1.0 / Real.sqrt 2.0 * a.norm) ^ 2 = sdot a a / 2 := by
  unfold Alg.norm
  rw [alg_squarenorm_eq, mul_pow, Real.sq_sqrt (sdot_nonneg' a), div_pow, Real.sq_sqrt (by norm_num)]
  norm_num
  ring

theorem half_norm_nonneg (a : Alg N) : 0 ≤ 1.0 / Real.sqrt 2.0 * a.norm :=
  mul_nonneg (div_nonneg (by norm_num) (Real.sqrt_nonneg _)) (Real.sqrt_nonneg _)

theorem half_norm_zero (a : Alg N) : 1.0 / Real.sqrt 2.0 * a.norm = 0 ↔ a = 0 := by
  constructor
  · intro h
    by_contra h0
    have := sdot_self_pos h0
    have h2 := half_norm_sq a
    rw [h] at h2
    linarith
  · rintro rfl
    unfold Alg.norm Alg.squarenorm
    simp

/-- The part of `K` that is orthogonal to `F`. -/
noncomputable def orthPart (F K : Alg N) : Alg N := K - (sdot F K / sdot F F) • F

theorem orthPart_dot {F : Alg N} (hF : F ≠ 0) (K : Alg N) : sdot F (orthPart F K) = 0 := by
  unfold orthPart
  rw [sdot_sub_smul, div_mul_cancel₀ _ (sdot_self_pos hF).ne', sub_self]

theorem csDir_eq (F K : Alg N) : csDir F K = if F = 0 ∨ orthPart F K = 0 then none else
    some ((1.0 / Real.sqrt 2.0 * (orthPart F K).norm)⁻¹ • orthPart F K) := by
  unfold csDir
  dsimp only
  by_cases hF : F = 0
  · rw [if_pos ((half_norm_zero F).2 hF), if_pos (Or.inl hF)]
  · rw [if_neg (mt (half_norm_zero F).1 hF)]
    have hK : K - ((1.0 / Real.sqrt 2.0 * F.norm)⁻¹ • F).dot K • (1.0 / Real.sqrt 2.0 * F.norm)⁻¹ • F = orthPart F K := by
      unfold orthPart
      rw [alg_dot_eq, sdot_symm, sdot_smul, smul_smul, sdot_symm K F]
      congr 2
      have h1 := half_norm_sq F
      have h2 : 1.0 / Real.sqrt 2.0 * F.norm ≠ 0 := mt (half_norm_zero F).1 hF
      have h3 := (sdot_self_pos hF).ne'
      generalize 1.0 / Real.sqrt 2.0 * F.norm = s at h1 h2
      field_simp
      rw [h1]
      ring
    rw [hK]
    by_cases h : orthPart F K = 0
    · rw [if_pos ((half_norm_zero _).2 h), if_pos (Or.inr h)]
    · rw [if_neg (mt (half_norm_zero _).1 h), if_neg (by tauto)]

/-! ### Fields -/

theorem allSome_iff {α : Type} {f : Fin n → PSite L → Option α} {F : Fin n → PSite L → α} :
    allSome f = some F ↔ ∀ d x, f d x = some (F d x) := by
  refine ⟨fun h d x => ?_, allSome_some⟩
  unfold allSome at h
  split_ifs at h with h1
  rw [← Option.some.inj h]
  exact (Option.some_get _).symm

/-- The same action in `gradient_flow.h`. -/
def CsAction.gf : CsAction → GfAction
  | .luscherWeisz => .luscherWeisz
  | .iwasaki => .iwasaki
  | .dbw2 => .dbw2
  | .wilson => .wilson

theorem csGaugeForce_gf (a : CsAction) (U : GField L N) : csGaugeForce a U = gfForce a.gf U := by
  cases a <;> rfl

theorem csS_gf [∀ d, NeZero (L d)] (a : CsAction) (U : GField L N) : csS a U = gfS a.gf U := by
  cases a <;> rfl

theorem csGf_ne (a : CsAction) : a.gf ≠ .zeuthen := by cases a <;> simp [CsAction.gf]

theorem csForce_iff {a : CsAction} {U : GField L N} {K D : AlgField L N} :
    csForce a U K = some D ↔ ∃ F, csGaugeForce a U = some F ∧ ∀ d x, csDir (F d x) (K d x) = some (D d x) := by
  unfold csForce
  rw [Option.bind_eq_some_iff]
  exact exists_congr fun F => and_congr_right fun _ => allSome_iff

/-! ### Matrices that commute with all unitary matrices -/

theorem commutes_zero (hN : 0 < N) {M : Mat N} (htr : M.trace = 0)
    (hc : ∀ g ∈ Matrix.unitaryGroup (Fin N) ℂ, g * M = M * g) : M = 0 := by
  have hoff : ∀ i j, i ≠ j → M i j = 0 := by
    intro i j hij
    have hu : Matrix.diagonal (fun k : Fin N => if k = i then (-1 : ℂ) else 1) ∈ Matrix.unitaryGroup (Fin N) ℂ := by
      rw [Matrix.mem_unitaryGroup_iff, Matrix.star_eq_conjTranspose, Matrix.diagonal_conjTranspose, Matrix.diagonal_mul_diagonal,
        ← Matrix.diagonal_one]
      congr 1
      funext k
      simp only [Pi.star_apply]
      split <;> simp
    have := congrFun (congrFun (hc _ hu) i) j
    rw [Matrix.diagonal_mul, Matrix.mul_diagonal, if_pos rfl, if_neg (Ne.symm hij)] at this
    have h2 : (2 : ℂ) * M i j = 0 := by linear_combination -this
    simpa using h2
  have hdiag : ∀ i j, M i i = M j j := by
    intro i j
    have hu : (Equiv.swap i j).permMatrix ℂ ∈ Matrix.unitaryGroup (Fin N) ℂ := by
      rw [Matrix.mem_unitaryGroup_iff, Matrix.star_eq_conjTranspose, Matrix.conjTranspose_permMatrix, ← Matrix.permMatrix_mul]
      simp
    have := congrFun (congrFun (hc _ hu) i) j
    unfold Equiv.Perm.permMatrix at this
    rw [PEquiv.toMatrix_toPEquiv_mul, PEquiv.mul_toMatrix_toPEquiv] at this
    simp only [Matrix.submatrix_apply, id_eq, Equiv.swap_apply_left, Equiv.symm_swap, Equiv.swap_apply_right] at this
    exact this.symm
  funext i j
  by_cases hij : i = j
  · subst hij
    have : M.trace = N * M i i := by
      unfold Matrix.trace
      simp only [Matrix.diag_apply]
      rw [Finset.sum_congr rfl fun k _ => hdiag k i]
      simp
    rw [htr] at this
    have hN' : (N : ℂ) ≠ 0 := Nat.cast_ne_zero.2 hN.ne'
    rcases mul_eq_zero.1 this.symm with h | h
    · exact absurd h hN'
    · exact h
  · exact hoff i j hij

/-- At the field of unit links all forces vanish. -/
theorem cold_force [∀ d, NeZero (L d)] (hN : 0 < N) (hn : 2 ≤ n) (act : GfAction) (hz : act ≠ .zeuthen) :
    gfForce act (fun _ _ => 1 : GField L N) = some 0 := by
  have hV : IsUnitaryField (fun _ _ => 1 : GField L N) := fun _ _ => one_mem _
  obtain ⟨F, hF⟩ := gfForce_some hN hn act hV
  rw [hF]
  congr 1
  funext d x
  refine expand_inj hN ?_
  have h0 : expand (0 : Alg N) = 0 := by simpa using expand_smul hN 0 (0 : Alg N)
  show expand (F d x) = expand (0 : Alg N)
  rw [h0]
  refine commutes_zero hN (by rw [expand_eq hN, algMat_trace hN]) fun g hg => ?_
  have hg1 : g * gᴴ = 1 := Matrix.mem_unitaryGroup_iff.1 hg
  have hg2 : gᴴ * g = 1 := Matrix.mem_unitaryGroup_iff'.1 hg
  have h1 := gfForce_gauge hN hn act hz hV (g := fun _ => g) (fun _ => hg) hF
  have h2 : gaugeT (fun _ => g) (fun _ _ => 1 : GField L N) = fun _ _ => 1 := by
    funext d x
    unfold gaugeT
    rw [Matrix.mul_one, hg1]
  rw [h2, hF] at h1
  have h3 : F d x = leftConj g (F d x) := congrFun (congrFun (Option.some.inj h1) d) x
  have h4 := (C50_conjugation hN hg (F d x) 0).1
  rw [← h3] at h4
  calc g * expand (F d x) = g * expand (F d x) * (gᴴ * g) := by rw [hg2, Matrix.mul_one]
    _ = (g * expand (F d x) * gᴴ) * g := by simp only [Matrix.mul_assoc]
    _ = _ := by rw [← h4]

/-! ### The loop -/

/-- What the passes of the loop do: accepted steps move the field and the direction, rejected steps only the
direction. -/
inductive CsChain [∀ d, NeZero (L d)] (e : CsEnv L N) (tatol rtol : ℝ) :
    GField L N → AlgField L N → ℝ → GField L N → AlgField L N → Prop
  | refl (V E) : CsChain e tatol rtol V E 0 V E
  | step {V W : GField L N} {E E' : AlgField L N} {h T : ℝ} {o : RkOut L N × AlgField L N} (hh : 0 < h)
      (ho : csRkStep e V E h = some o) (he : relErr tatol rtol h o.1 < 1)
      (hc : CsChain e tatol rtol (fun d x => e.reunit (o.1.V d x)) o.2 T W E') : CsChain e tatol rtol V E (h + T) W E'
  | reject {V W : GField L N} {E E' : AlgField L N} {h T : ℝ} {o : RkOut L N × AlgField L N} (hh : 0 < h)
      (ho : csRkStep e V E h = some o) (he : ¬ relErr tatol rtol h o.1 < 1)
      (hc : CsChain e tatol rtol V o.2 T W E') : CsChain e tatol rtol V E T W E'

theorem csMaxStep_pos {step : ℝ} (h : 0 < step) (r : ℝ) : 0 < csMaxStep step r := by
  unfold csMaxStep
  split_ifs with h1
  · refine mul_pos h (Real.rpow_pos_of_pos (lt_trans (Real.rpow_pos_of_pos (by norm_num) _) h1) _)
  · exact mul_pos h (by norm_num)

theorem csPassStep_spec {t step tmax : ℝ} (hs : 0 < step) (ht : t < tmax) :
    0 < csPassStep t step tmax ∧ t + csPassStep t step tmax ≤ tmax ∧ (t + step ≥ tmax → t + csPassStep t step tmax = tmax) := by
  unfold csPassStep
  split_ifs with h1 h2
  · exact ⟨by linarith, by linarith, fun _ => by linarith⟩
  · have h3 : (0.501 : ℝ) < 1 := by norm_num
    have h4 : (0 : ℝ) < 0.501 := by norm_num
    exact ⟨mul_pos h4 (by linarith), by nlinarith, fun h => absurd h h1⟩
  · exact ⟨hs, (not_le.1 h1).le, fun h => absurd h h1⟩

theorem csLoop_chain [∀ d, NeZero (L d)] (e : CsEnv L N) (tatol rtol tmax ub : ℝ) (hu : 0 < ub) (fuel : ℕ) (s s' : CsState L N)
    (h : csLoop e tatol rtol tmax ub fuel s = some s') (hV : s.V0 = s.V) (hs : 0 < s.step) (ht : s.t ≤ tmax) (hst : s.stop = true → s.t = tmax) :
    CsChain e tatol rtol s.V s.E (tmax - s.t) s'.V s'.E := by
  have hend : ∀ s : CsState L N, ¬(s.t < tmax ∧ s.stop = false) → s.t ≤ tmax → (s.stop = true → s.t = tmax) →
      CsChain e tatol rtol s.V s.E (tmax - s.t) s.V s.E := by
    intro s h1 h2 h3
    have : s.t = tmax := by
      by_contra h4
      refine h1 ⟨lt_of_le_of_ne h2 h4, ?_⟩
      cases h5 : s.stop
      · rfl
      · exact absurd (h3 h5) h4
    rw [this, sub_self]
    exact .refl _ _
  induction fuel generalizing s with
  | zero =>
    unfold csLoop at h
    split_ifs at h with h1
    obtain rfl := Option.some.inj h
    exact hend _ h1 ht hst
  | succ fuel ih =>
    unfold csLoop at h
    split_ifs at h with h1
    · obtain ⟨c, hc, h⟩ := Option.bind_eq_some_iff.1 h
      unfold csBody at hc
      dsimp only at hc
      obtain ⟨o, ho, hc⟩ := Option.map_eq_some_iff.1 hc
      obtain ⟨p1, p2, p3⟩ := csPassStep_spec hs h1.1
      have hm := csMaxStep_pos p1 (relErr tatol rtol (csPassStep s.t s.step tmax) o.1)
      have hm' : 0 < min (0.9 * csMaxStep (csPassStep s.t s.step tmax) (relErr tatol rtol (csPassStep s.t s.step tmax) o.1)) ub :=
        lt_min (mul_pos (by norm_num) hm) hu
      by_cases hr : relErr tatol rtol (csPassStep s.t s.step tmax) o.1 < 1.0
      · rw [if_pos hr] at hc
        subst hc
        have := ih _ h rfl hm' p2 (by
          intro h5
          refine p3 ?_
          by_contra h6
          dsimp only at h5
          rw [if_neg h6, h1.2] at h5
          cases h5)
        have e1 : tmax - s.t = csPassStep s.t s.step tmax + (tmax - (s.t + csPassStep s.t s.step tmax)) := by ring
        rw [e1]
        exact .step p1 ho (by norm_num at hr; exact hr) this
      · rw [if_neg hr] at hc
        subst hc
        have := ih _ h rfl hm' ht (by intro h5; cases h5)
        dsimp only at this
        rw [hV] at this
        exact .reject p1 ho (by norm_num at hr; exact not_lt.2 hr) this
    · obtain rfl := Option.some.inj h
      exact hend _ h1 ht hst

end Hila
