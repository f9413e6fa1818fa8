import Verif.Lemmas.GradFlow

/-!
# C60: gradient flow
-/

set_option linter.unusedSectionVars false

namespace Hila

open Matrix

variable {n : ℕ} {L : Fin n → ℕ} {N : ℕ}

/-! ### Force, action and energy -/

/-- **C60.** Along the flow the action that belongs to the force decreases: along each curve of unitary links with
`dV/dt = F(V) V` at `t = 0` the derivative of the action is `-|F|^2 / (2N)`. Holds for all actions but `Zeuthen`. -/
theorem C60_descent [∀ d, NeZero (L d)] (hN : 0 < N) (hn : 2 ≤ n) (act : GfAction) (hz : act ≠ .zeuthen) (V : GField L N)
    (hV : IsUnitaryField V) : ∃ F, gfForce act V = some F ∧
      ∀ U : ℝ → GField L N, U 0 = V → (∀ t, IsUnitaryField (U t)) → (LinkCurve U fun d x => expand (F d x)) →
        HasDerivAt (fun t => gfS act (U t)) (-(∑ d, ∑ x, (F d x).squarenorm) / (2 * N)) 0 := by
  obtain ⟨F, hF⟩ := gfForce_some hN hn act hV
  refine ⟨F, hF, fun U h0 hu hU => ?_⟩
  obtain ⟨F1, e1, d1⟩ := gfForce_deriv hN hn act hz U F hU hu
  rw [h0, hF] at e1
  obtain rfl := Option.some.inj e1
  refine d1.congr_deriv ?_
  unfold pairK Alg.squarenorm
  simp only [pow_two]

theorem dot_pair [∀ d, NeZero (L d)] (Kc K : AlgField L N) : ∑ d, ∑ x, (Kc d x).dot (K d x) = pairK K Kc / 2 := by
  unfold Alg.dot pairK
  rw [Finset.sum_div]
  refine Finset.sum_congr rfl fun d _ => ?_
  rw [Finset.sum_div]
  refine Finset.sum_congr rfl fun x _ => ?_
  rw [Finset.sum_div, Finset.sum_mul]
  refine Finset.sum_congr rfl fun k _ => ?_
  ring

/-- **C60.** `measure_dE_wplaq_dt` is the derivative of the plaquette energy `2 N S` (the energy that the flow measurement
prints, times the volume) with respect to the flow time, for every action of the flow. -/
theorem C60_energy_plaq [∀ d, NeZero (L d)] (hN : 0 < N) (hn : 2 ≤ n) (act : GfAction) (V : GField L N) (hV : IsUnitaryField V) :
    ∃ F D, gfForce act V = some F ∧ measureDEWplaq act V = some D ∧
      ∀ U : ℝ → GField L N, U 0 = V → (LinkCurve U fun d x => expand (F d x)) →
        HasDerivAt (fun t => 2 * N * measureSWplaq (U t)) D 0 := by
  obtain ⟨F, hF⟩ := gfForce_some hN hn act hV
  obtain ⟨Kc, hK, -⟩ := C57_wplaq hN hn (fun _ => V) 0 (const_curve V hN) (-2.0)
  refine ⟨F, _, hF, by unfold measureDEWplaq; rw [hF, allSome_some hK]; rfl, fun U h0 hU => ?_⟩
  obtain ⟨F1, e1, d1⟩ := C57_wplaq hN hn U F hU (-2.0)
  have e : F1 = Kc := by
    funext d x
    have := e1 d x
    rw [h0, hK] at this
    exact (Option.some.inj this).symm
  rw [e] at d1
  dsimp only
  rw [dot_pair]
  have hN' : (N : ℝ) ≠ 0 := Nat.cast_ne_zero.2 (by omega)
  have h2 := d1.const_mul (-(N : ℝ))
  refine (h2.congr_deriv ?_).congr_of_eventuallyEq (Filter.Eventually.of_forall fun t => ?_)
  · field_simp
  · show 2 * (N : ℝ) * measureSWplaq (U t) = -(N : ℝ) * (-2.0 * measureSWplaq (U t))
    norm_num
    ring

/-- **C60.** In four dimensions `measure_dE_clov_dt` is the derivative of the clover energy that
`measure_topo_charge_and_energy_clover` returns. -/
theorem C60_energy_clover {L : Fin 4 → ℕ} [∀ d, NeZero (L d)] (hN : 0 < N) (act : GfAction) (V : GField L N) (hV : IsUnitaryField V) :
    ∃ F D, gfForce act V = some F ∧ measureDEClov act V = some D ∧
      ∀ U : ℝ → GField L N, U 0 = V → (∀ t, IsUnitaryField (U t)) → (LinkCurve U fun d x => expand (F d x)) →
        ∃ E : ℝ → ℝ, (∀ t, ∃ q, chargeEnergy (U t) = some (q, E t)) ∧ HasDerivAt E D 0 := by
  obtain ⟨F, hF⟩ := gfForce_some hN (by norm_num) act hV
  refine ⟨F, _, hF, by unfold measureDEClov; rw [hF]; rfl, fun U h0 hu hU => ?_⟩
  refine ⟨fun t => 2 * N * measureSClover (U t), fun t => ⟨_, C58_charge_energy (U t) (hu t)⟩, ?_⟩
  have d1 := (C58_force hN U F hU hu (-2.0) (fun _ _ => 0)).1
  rw [h0] at d1
  dsimp only
  rw [dot_pair]
  have hN' : (N : ℝ) ≠ 0 := Nat.cast_ne_zero.2 (by omega)
  have h2 := d1.const_mul (-(N : ℝ))
  refine (h2.congr_deriv ?_).congr_of_eventuallyEq (Filter.Eventually.of_forall fun t => ?_)
  · field_simp
  · show 2 * (N : ℝ) * measureSClover (U t) = -(N : ℝ) * (-2.0 * measureSClover (U t))
    norm_num
    ring

/-- **C60.** The forces of all actions but `Zeuthen` are gauge covariant. -/
theorem C60_force_covariant [∀ d, NeZero (L d)] (hN : 0 < N) (hn : 2 ≤ n) (act : GfAction) (hz : act ≠ .zeuthen) (V : GField L N)
    (hV : IsUnitaryField V) (g : PSite L → Mat N) (hg : IsGauge g) :
    ∃ F, gfForce act V = some F ∧ gfForce act (gaugeT g V) = some fun d x => leftConj (g x) (F d x) := by
  obtain ⟨F, hF⟩ := gfForce_some hN hn act hV
  exact ⟨F, hF, gfForce_gauge hN hn act hz hV hg hF⟩

/-! ### The Zeuthen force -/

/-- Links ±1 with the sign -1 on the links in direction 0 with coordinate 0 in direction 1. -/
def signU (N : ℕ) : GField (fun _ : Fin 4 => 2) N := fun d x => if d = 0 ∧ x 1 = 0 then -1 else 1

theorem signU_unitary : IsUnitaryField (signU N) := by
  intro d x
  unfold signU
  split_ifs
  · rw [Matrix.mem_unitaryGroup_iff, star_neg, star_one, neg_mul_neg, one_mul]
  · exact one_mem _

/-- The sign. -/
def sgn4 (d : Fin 4) (x : Fin 4 → ZMod 2) : ℤ := if d = 0 ∧ x 1 = 0 then -1 else 1

theorem signU_eq (d : Fin 4) (x : PSite fun _ : Fin 4 => 2) : signU N d x = ((sgn4 d x : ℤ) : ℂ) • (1 : Mat N) := by
  unfold signU sgn4
  split_ifs <;> simp

theorem sgn_plaq : ∀ d1 d2 : Fin 4, d1 < d2 → ∀ x : Fin 4 → ZMod 2,
    sgn4 d1 x * sgn4 d2 (x + Pi.single d1 1) * (sgn4 d2 x * sgn4 d1 (x + Pi.single d2 1)) = if d1 = 0 ∧ d2 = 1 then -1 else 1 := by
  intro d1 d2 h x
  unfold sgn4
  simp only [Pi.add_apply]
  fin_cases d1 <;> fin_cases d2 <;> simp at h ⊢
  all_goals
    generalize x 1 = a
    revert a
    decide

theorem sign_impr (hN : 0 < N) (c11 c12 : ℝ) : measureSImpr (signU N) c11 c12 = 32 * c11 := by
  have hN' : (N : ℝ) ≠ 0 := Nat.cast_ne_zero.2 (by omega)
  have hP : ∀ d1 d2 : Fin 4, d1 < d2 → ∀ x : PSite fun _ : Fin 4 => 2,
      signU N d1 x * signU N d2 (x + unitStep d1) * (signU N d2 x * signU N d1 (x + unitStep d2))ᴴ =
        (((if d1 = 0 ∧ d2 = 1 then -1 else 1 : ℤ) : ℤ) : ℂ) • (1 : Mat N) := by
    intro d1 d2 h x
    rw [← sgn_plaq d1 d2 h x]
    simp only [signU_eq, unitStep, Matrix.conjTranspose_mul, Matrix.conjTranspose_smul, Matrix.conjTranspose_one, Matrix.smul_mul, Matrix.mul_smul,
      Matrix.one_mul, smul_smul]
    congr 1
    simp only [Int.cast_mul, star_mul', star_intCast]
    ring
  have hsq : ∀ d (x : PSite fun _ : Fin 4 => 2), ((sgn4 d x : ℤ) : ℂ) * ((sgn4 d x : ℤ) : ℂ) = 1 := by
    intro d x; unfold sgn4; split_ifs <;> norm_num
  have hterm : ∀ d1 d2 : Fin 4, d1 < d2 → (∑ x : PSite fun _ : Fin 4 => 2, c11 * (1 - (((((if d1 = 0 ∧ d2 = 1 then -1 else 1 : ℤ) : ℤ) : ℂ) • (1 : Mat N)).trace.re / N)) =
      if d1 = 0 ∧ d2 = 1 then 32 * c11 else 0) := by
    intro d1 d2 _
    have hc : Fintype.card (PSite fun _ : Fin 4 => 2) = 16 := rfl
    rw [Finset.sum_const, Finset.card_univ, hc]
    split_ifs
    · simp [Matrix.trace_neg, Matrix.trace_one]
      field_simp
      ring
    · simp [Matrix.trace_one, hN']
  unfold measureSImpr
  have h : ∀ d1 d2 : Fin 4, (if d1 < d2 then
      (∑ x, c11 * (1 - (signU N d1 x * signU N d2 (x + unitStep d1) * (signU N d2 x * signU N d1 (x + unitStep d2))ᴴ).trace.re / N)) +
      ∑ x, (c12 * (1 - (signU N d1 x * (signU N d1 (x + unitStep d1) * signU N d2 (x + unitStep d1 + unitStep d1) *
          (signU N d2 (x + unitStep d1) * signU N d1 (x + unitStep d1 + unitStep d2))ᴴ) * (signU N d1 x)ᴴ *
          (signU N d1 x * signU N d2 (x + unitStep d1) * (signU N d2 x * signU N d1 (x + unitStep d2))ᴴ)).trace.re / N) +
        c12 * (1 - (signU N d1 x * signU N d2 (x + unitStep d1) * (signU N d2 x * signU N d1 (x + unitStep d2))ᴴ * signU N d2 x *
          (signU N d1 (x + unitStep d2) * signU N d2 (x + unitStep d2 + unitStep d1) *
          (signU N d2 (x + unitStep d2) * signU N d1 (x + unitStep d2 + unitStep d2))ᴴ) * (signU N d2 x)ᴴ).trace.re / N))
      else (0 : ℝ)) = if d1 = 0 ∧ d2 = 1 then 32 * c11 else 0 := by
    intro d1 d2
    by_cases hd : d1 < d2
    · rw [if_pos hd]
      have hzero : ∀ x, (c12 * (1 - (signU N d1 x * (signU N d1 (x + unitStep d1) * signU N d2 (x + unitStep d1 + unitStep d1) *
          (signU N d2 (x + unitStep d1) * signU N d1 (x + unitStep d1 + unitStep d2))ᴴ) * (signU N d1 x)ᴴ *
          (signU N d1 x * signU N d2 (x + unitStep d1) * (signU N d2 x * signU N d1 (x + unitStep d2))ᴴ)).trace.re / N) +
        c12 * (1 - (signU N d1 x * signU N d2 (x + unitStep d1) * (signU N d2 x * signU N d1 (x + unitStep d2))ᴴ * signU N d2 x *
          (signU N d1 (x + unitStep d2) * signU N d2 (x + unitStep d2 + unitStep d1) *
          (signU N d2 (x + unitStep d2) * signU N d1 (x + unitStep d2 + unitStep d2))ᴴ) * (signU N d2 x)ᴴ).trace.re / N)) = 0 := by
        intro x
        rw [hP d1 d2 hd, hP d1 d2 hd, hP d1 d2 hd]
        have e1 : ∀ z w : ℂ, w * w = 1 → z * z = 1 → ((z • (1 : Mat N)) * (w • 1) * (z • (1 : Mat N)) * (w • 1)) = 1 := by
          intro z w hw hz
          simp only [Matrix.smul_mul, Matrix.one_mul, smul_smul]
          rw [show z * w * z * w = (z * z) * (w * w) by ring, hw, hz, one_mul, one_smul]
        have hs : ∀ d (x : PSite fun _ : Fin 4 => 2), (signU N d x)ᴴ = ((sgn4 d x : ℤ) : ℂ) • (1 : Mat N) := by
          intro d x
          rw [signU_eq, Matrix.conjTranspose_smul, Matrix.conjTranspose_one, star_intCast]
        rw [hs, hs, signU_eq d1 x, signU_eq d2 x]
        have hp : (((if d1 = 0 ∧ d2 = 1 then -1 else 1 : ℤ) : ℤ) : ℂ) * (((if d1 = 0 ∧ d2 = 1 then -1 else 1 : ℤ) : ℤ) : ℂ) = 1 := by
          split_ifs <;> norm_num
        rw [e1 _ _ hp (hsq d1 x), e1 _ _ (hsq d2 x) hp, Matrix.trace_one, Fintype.card_fin, Complex.natCast_re, div_self hN', sub_self,
          mul_zero, add_zero]
      rw [Finset.sum_eq_zero fun x _ => hzero x, add_zero, ← hterm d1 d2 hd]
      refine Finset.sum_congr rfl fun x _ => ?_
      rw [hP d1 d2 hd]
    · rw [if_neg hd, if_neg]
      rintro ⟨rfl, rfl⟩
      exact hd (by decide)
  refine (Finset.sum_congr rfl fun d1 _ => Finset.sum_congr rfl fun d2 _ => h d1 d2).trans ?_
  rw [Fin.sum_univ_four, Fin.sum_univ_four, Fin.sum_univ_four, Fin.sum_univ_four, Fin.sum_univ_four]
  simp

theorem one_impr (hN : 0 < N) (c11 c12 : ℝ) : measureSImpr (fun _ _ => 1 : GField (fun _ : Fin 4 => 2) N) c11 c12 = 0 := by
  have hN' : (N : ℝ) ≠ 0 := Nat.cast_ne_zero.2 (by omega)
  unfold measureSImpr
  refine Finset.sum_eq_zero fun d1 _ => Finset.sum_eq_zero fun d2 _ => ?_
  split_ifs
  · simp [Matrix.trace_one, hN']
  · rfl

/-! ### The force of the Zeuthen flow -/

/-- A matrix that commutes with two rotations is a multiple of one. -/
theorem su2_fixed {f : Alg 2} (h : ∀ g ∈ Matrix.specialUnitaryGroup (Fin 2) ℂ, leftConj g f = f) : f = 0 := by
  have hcomm : ∀ g ∈ Matrix.specialUnitaryGroup (Fin 2) ℂ, g * expand f = expand f * g := by
    intro g hg
    have hu := (Matrix.mem_specialUnitaryGroup_iff.1 hg).1
    have h1 := (C50_conjugation (by norm_num) hu f 0).1
    rw [h g hg] at h1
    have h2 : gᴴ * g = 1 := Matrix.mem_unitaryGroup_iff'.1 hu
    conv_rhs => rw [h1, Matrix.mul_assoc, h2, Matrix.mul_one]
  have m1 : !![Complex.I, 0; 0, -Complex.I] ∈ Matrix.specialUnitaryGroup (Fin 2) ℂ := by
    rw [Matrix.mem_specialUnitaryGroup_iff, Matrix.mem_unitaryGroup_iff]
    constructor
    · ext i j; fin_cases i <;> fin_cases j <;> simp [Matrix.mul_apply, Fin.sum_univ_two, Matrix.star_apply]
    · simp [Matrix.det_fin_two]
  have m2 : !![(0 : ℂ), 1; -1, 0] ∈ Matrix.specialUnitaryGroup (Fin 2) ℂ := by
    rw [Matrix.mem_specialUnitaryGroup_iff, Matrix.mem_unitaryGroup_iff]
    constructor
    · ext i j; fin_cases i <;> fin_cases j <;> simp [Matrix.mul_apply, Fin.sum_univ_two, Matrix.star_apply]
    · simp [Matrix.det_fin_two]
  have c1 := hcomm _ m1
  have c2 := hcomm _ m2
  have ht : (expand f).trace = 0 := by rw [expand_eq (by norm_num)]; exact algMat_trace (by norm_num) f
  have hz : expand f = 0 := by
    generalize expand f = M at c1 c2 ht
    have a01 := congrFun (congrFun c1 0) 1
    have a10 := congrFun (congrFun c1 1) 0
    have b01 := congrFun (congrFun c2 0) 1
    simp [Matrix.mul_apply, Fin.sum_univ_two] at a01 a10 b01
    rw [Matrix.trace_fin_two] at ht
    have e01 : M 0 1 = 0 := by
      have : Complex.I * M 0 1 * 2 = 0 := by linear_combination a01
      simpa using this
    have e10 : M 1 0 = 0 := by
      have : Complex.I * M 1 0 * 2 = 0 := by linear_combination -a10
      simpa using this
    have e00 : M 0 0 = 0 := by
      have : M 0 0 * 2 = 0 := by linear_combination ht - b01
      simpa using this
    have e11 : M 1 1 = 0 := by rw [e00, zero_add] at ht; exact ht
    ext i j; fin_cases i <;> fin_cases j <;> simp [e00, e01, e10, e11]
  refine expand_inj (by norm_num) (hz.trans ?_)
  have : expand (0 : Alg 2) = 0 := by simpa using expand_smul (by norm_num) 0 (0 : Alg 2)
  exact this.symm

/-- `-1` is the exponential of an algebra element. -/
theorem su2_minus : ∃ a : Alg 2, expAlg a = -1 := by
  refine ⟨project (Matrix.diagonal ![Real.pi * Complex.I, -(Real.pi * Complex.I)]), ?_⟩
  have h : algPart (Matrix.diagonal ![Real.pi * Complex.I, -(Real.pi * Complex.I)] : Mat 2) = Matrix.diagonal ![Real.pi * Complex.I, -(Real.pi * Complex.I)] := by
    unfold algPart
    ext i j; fin_cases i <;> fin_cases j <;> simp [Matrix.trace_fin_two, Matrix.diagonal] <;> ring
  unfold expAlg
  rw [expand_project (by norm_num), h, Matrix.exp_diagonal]
  ext i j
  fin_cases i <;> fin_cases j <;> simp [Pi.coe_exp, ← Complex.exp_eq_exp_ℂ, Complex.exp_neg, Complex.exp_pi_mul_I, Matrix.diagonal]

theorem one_unitary {N : ℕ} : IsUnitaryField (fun _ _ => 1 : GField L N) := fun _ _ => one_mem _

/-- Some field has a force. -/
theorem some_force : ∃ V : GField (fun _ : Fin 4 => 2) 2, (∀ d x, V d x ∈ Matrix.specialUnitaryGroup (Fin 2) ℂ) ∧ ∃ F d x, gfForce .luscherWeisz V = some F ∧ F d x ≠ 0 := by
  by_contra hcon
  have hzero : ∀ V : GField (fun _ : Fin 4 => 2) 2, (∀ d x, V d x ∈ Matrix.specialUnitaryGroup (Fin 2) ℂ) → ∀ F, gfForce .luscherWeisz V = some F → F = 0 := by
    intro V hV F hF
    by_contra h
    apply hcon
    refine ⟨V, hV, F, ?_⟩
    by_contra h2
    apply h
    funext d x
    by_contra h3
    exact h2 ⟨d, x, hF, h3⟩
  obtain ⟨A, hA⟩ := su2_minus
  obtain ⟨a, ha⟩ : ∃ a : AlgField (fun _ : Fin 4 => 2) 2, a = fun d x => if d = 0 ∧ x 1 = 0 then A else 0 := ⟨_, rfl⟩
  have hcurve : ∀ t0 : ℝ, HasDerivAt (fun t : ℝ => gfS .luscherWeisz (fun d x => expAlg (t • a d x) : GField (fun _ : Fin 4 => 2) 2)) 0 t0 := by
    intro t0
    have hu : ∀ t : ℝ, IsUnitaryField (fun d x => expAlg (t • a d x) : GField (fun _ : Fin 4 => 2) 2) := fun t d x =>
      (Matrix.mem_specialUnitaryGroup_iff.1 (expAlg_mem (by norm_num) _)).1
    have hlc : LinkCurve (fun (s : ℝ) => (fun d x => expAlg ((s + t0) • a d x) : GField (fun _ : Fin 4 => 2) 2)) fun d x => expand (a d x) := by
      have := exp_curve (fun d x => expAlg (t0 • a d x) : GField (fun _ : Fin 4 => 2) 2) fun d x => expand (a d x)
      have e : (fun (s : ℝ) => (fun d x => expAlg ((s + t0) • a d x) : GField (fun _ : Fin 4 => 2) 2)) =
          fun (s : ℝ) d x => NormedSpace.exp (s • expand (a d x)) * expAlg (t0 • a d x) := by
        funext s d x
        rw [expAlg_add_smul (by norm_num)]
        unfold expAlg
        rw [expand_smul (by norm_num) s]
        rfl
      rw [e]
      exact this
    obtain ⟨F, hF, hd⟩ := gfForce_deriv (by norm_num) (by norm_num) .luscherWeisz (by simp) _ a hlc (fun s => hu (s + t0))
    rw [hzero _ (fun d x => expAlg_mem (by norm_num) _) F hF] at hd
    have hp : pairK a (0 : AlgField (fun _ : Fin 4 => 2) 2) = 0 := by unfold pairK; simp
    rw [hp, neg_zero, zero_div] at hd
    have hd' := HasDerivAt.comp_sub_const (f := fun s : ℝ => gfS .luscherWeisz (fun d x => expAlg ((s + t0) • a d x) : GField (fun _ : Fin 4 => 2) 2)) t0 t0 (by rwa [sub_self])
    simpa only [sub_add_cancel] using hd'
  have hc := is_const_of_deriv_eq_zero (fun t => (hcurve t).differentiableAt) (fun t => (hcurve t).deriv) 0 1
  have e0 : (fun d x => expAlg ((0 : ℝ) • a d x) : GField (fun _ : Fin 4 => 2) 2) = fun _ _ => 1 := by
    funext d x
    rw [zero_smul, expAlg_zero (by norm_num)]
  have e1 : (fun d x => expAlg ((1 : ℝ) • a d x) : GField (fun _ : Fin 4 => 2) 2) = signU 2 := by
    funext d x
    rw [one_smul, ha]
    unfold signU
    dsimp only
    split_ifs
    · exact hA
    · exact expAlg_zero (by norm_num)
  rw [e0, e1, gfS_eq _ _ one_unitary, gfS_eq _ _ signU_unitary, one_impr (by norm_num), sign_impr (by norm_num)] at hc
  unfold gfCoef at hc
  norm_num at hc

/-- **C60, negation.** The force of the `Zeuthen` flow is not gauge covariant, because the forward neighbour is missing in the
covariant derivative (gradient_flow.h:91). For a field on the lattice of size `2^4` and a gauge transformation in SU(2)
the force of the transformed field is not the transformed force. -/
theorem C60_zeuthen_not_covariant :
    ∃ (V : GField (fun _ : Fin 4 => 2) 2) (g : PSite (fun _ : Fin 4 => 2) → Mat 2), (∀ d x, V d x ∈ Matrix.specialUnitaryGroup (Fin 2) ℂ) ∧
      (∀ x, g x ∈ Matrix.specialUnitaryGroup (Fin 2) ℂ) ∧ ∃ F F', gfForce .zeuthen V = some F ∧ gfForce .zeuthen (gaugeT g V) = some F' ∧
        F' ≠ rotE g F := by
  obtain ⟨V, hVs, F, d, x, hF, hne⟩ := some_force
  have hV : IsUnitaryField V := fun d x => (Matrix.mem_specialUnitaryGroup_iff.1 (hVs d x)).1
  have hex : ∃ k ∈ Matrix.specialUnitaryGroup (Fin 2) ℂ, leftConj k (F d x) ≠ F d x := by
    by_contra h
    refine hne (su2_fixed fun g hg => ?_)
    by_contra h2
    exact h ⟨g, hg, h2⟩
  obtain ⟨k, hk, hkne⟩ := hex
  have hku := (Matrix.mem_specialUnitaryGroup_iff.1 hk).1
  obtain ⟨g, hg⟩ : ∃ g : PSite (fun _ : Fin 4 => 2) → Mat 2, g = fun y => if y = x + Pi.single d 1 then kᴴ else 1 := ⟨_, rfl⟩
  have hgs : ∀ y, g y ∈ Matrix.specialUnitaryGroup (Fin 2) ℂ := by
    intro y
    rw [hg]
    dsimp only
    split_ifs
    · rw [Matrix.mem_specialUnitaryGroup_iff] at hk ⊢
      refine ⟨Unitary.star_mem hk.1, ?_⟩
      rw [Matrix.det_conjTranspose, hk.2, star_one]
    · exact one_mem _
  have hgg : IsGauge g := fun y => (Matrix.mem_specialUnitaryGroup_iff.1 (hgs y)).1
  have hgx : g x = 1 := by
    rw [hg]
    refine if_neg fun h => ?_
    have := congrFun h d
    rw [Pi.add_apply, Pi.single_eq_same] at this
    exact one_ne_zero (α := ZMod 2) (left_eq_add.1 this)
  have hgx1 : g (x + Pi.single d 1) = kᴴ := by rw [hg]; exact if_pos rfl
  have hF' := gfForce_gauge (by norm_num) (by norm_num) .luscherWeisz (by simp) hV hgg hF
  refine ⟨V, g, hVs, hgs, _, _, by unfold gfForce zeuthenForce; dsimp only; rw [zeuthen_impr, hF]; rfl,
    by unfold gfForce zeuthenForce; dsimp only; rw [zeuthen_impr, hF']; rfl, fun h => ?_⟩
  have h1 := congrFun (congrFun h d) x
  unfold rotE at h1
  dsimp only at h1
  have hVd := hV d x
  have ex1 : gaugeT g V d x = V d x * k := by
    unfold gaugeT
    rw [hgx, hgx1, Matrix.conjTranspose_conjTranspose, Matrix.one_mul]
  have hVm := hV d (x - unitStep d)
  have ex2 : rightConj (gaugeT g V d (x - unitStep d)) (leftConj (g (x - unitStep d)) (F d (x - unitStep d))) =
      rightConj (V d (x - unitStep d)) (F d (x - unitStep d)) := by
    have e : gaugeT g V d (x - unitStep d) = g (x - unitStep d) * V d (x - unitStep d) := by
      unfold gaugeT unitStep
      rw [sub_add_cancel, hgx, Matrix.conjTranspose_one, Matrix.mul_one]
    rw [e, rightConj_eq, Matrix.conjTranspose_mul]
    refine (leftConj_mul (by norm_num) (Unitary.star_mem hVm) (Unitary.star_mem (hgg _)) _).trans ?_
    rw [Matrix.star_eq_conjTranspose, Matrix.star_eq_conjTranspose, ← rightConj_eq, ← rightConj_eq, (C50_conjugation (by norm_num) (hgg _) _ 0).2.2.1]
  rw [ex1, ex2, hgx] at h1
  simp only [leftConj_one (N := 2) (by norm_num)] at h1
  have h2 : leftConj (V d x * k) (F d x) = leftConj (V d x) (F d x) := by
    have h3 := add_left_cancel h1
    have h4 := smul_right_injective _ (show (1.0 / 12.0 : ℝ) ≠ 0 by norm_num) h3
    have h5 := add_right_cancel h4
    exact sub_left_injective h5
  rw [leftConj_mul (by norm_num) hVd hku] at h2
  apply hkne
  rw [← (C50_conjugation (by norm_num) hVd (leftConj k (F d x)) 0).2.2.1, h2, (C50_conjugation (by norm_num) hVd (F d x) 0).2.2.1]

end Hila
