import Verif.Props.GaussRand
import Verif.Props.SU2
import Verif.Props.HmcSample
import Mathlib.MeasureTheory.Measure.Haar.Unique

/-!
# C86: random elements of SU(2), and the momenta of hybrid Monte Carlo
-/

namespace Hila

open MeasureTheory ProbabilityTheory
open scoped ENNReal

/-- The element with four components. -/
def qOf (v : Fin 4 → ℝ) : SU2 := ⟨v 0, v 1, v 2, v 3⟩

/-- Its components. -/
def qVec (x : SU2) : Fin 4 → ℝ := ![x.a, x.b, x.c, x.d]

theorem qOf_qVec (x : SU2) : qOf (qVec x) = x := rfl

theorem qVec_qOf (v : Fin 4 → ℝ) : qVec (qOf v) = v := by
  funext i; fin_cases i <;> rfl

theorem qOf_det (v : Fin 4 → ℝ) : (qOf v).det = ∑ i, v i ^ 2 := by
  simp only [SU2.det, qOf, Fin.sum_univ_four]; ring

theorem qOf_det_pos {v : Fin 4 → ℝ} (h : v ≠ 0) : 0 < (qOf v).det := by
  rw [qOf_det]
  refine lt_of_le_of_ne (Finset.sum_nonneg fun i _ => sq_nonneg _) fun e => h ?_
  funext i
  have := (Finset.sum_eq_zero_iff_of_nonneg fun i _ => sq_nonneg (v i)).1 e.symm i (Finset.mem_univ i)
  simpa using this

/-- Multiplication from the left as a linear map of the components. -/
def qLeft (g : SU2) : (Fin 4 → ℝ) →ₗ[ℝ] (Fin 4 → ℝ) where
  toFun v := qVec (g.mul (qOf v))
  map_add' x y := by
    funext i; fin_cases i <;> simp [qVec, SU2.mul, qOf] <;> ring
  map_smul' r x := by
    funext i; fin_cases i <;> simp [qVec, SU2.mul, qOf] <;> ring

theorem qLeft_dagger (g : SU2) (hg : g.det = 1) (v : Fin 4 → ℝ) : qLeft g.dagger (qLeft g v) = v := by
  show qVec (g.dagger.mul (g.mul (qOf v))) = v
  have : g.dagger.mul (g.mul (qOf v)) = (g.dagger.mul g).mul (qOf v) := by
    unfold SU2.mul; ext <;> simp <;> ring
  rw [this, dagger_mul_self, hg]
  have h2 : (SU2.ofScalar 1).mul (qOf v) = qOf v := by unfold SU2.mul SU2.ofScalar; ext <;> simp
  rw [h2, qVec_qOf]

theorem qLeft_norm (g : SU2) (hg : g.det = 1) (v : Fin 4 → ℝ) : ∑ i, qLeft g v i ^ 2 = ∑ i, v i ^ 2 := by
  rw [← qOf_det, ← qOf_det]
  show (qOf (qVec (g.mul (qOf v)))).det = _
  rw [qOf_qVec, det_mul, hg, one_mul]

theorem dagger_det (g : SU2) : g.dagger.det = g.det := by unfold SU2.dagger SU2.det; ring

/-- Independent normal numbers of equal width look the same after a rotation. -/
theorem gauss_rotate (s : NNReal) (hs : s ≠ 0) (g : SU2) (hg : g.det = 1) :
    (Measure.pi fun _ : Fin 4 => gaussianReal 0 s).map (qLeft g) = Measure.pi fun _ : Fin 4 => gaussianReal 0 s := by
  obtain ⟨c, hc, hw⟩ := gaussian_weight s hs
  have hpi := pi_weight (ι := Fin 4) volume (fun x : ℝ => x ^ 2 / (2 * s)) (by fun_prop) (gaussianReal 0 s) c hw
  have hvol : (Measure.pi fun _ : Fin 4 => (volume : Measure ℝ)) = (volume : Measure (Fin 4 → ℝ)) := rfl
  rw [hvol] at hpi
  have hm : Measurable fun p : Fin 4 → ℝ => ENNReal.ofReal (Real.exp (-∑ i, p i ^ 2 / (2 * (s : ℝ)))) := by fun_prop
  have h1 := map_linear_density (qLeft g) (qLeft g.dagger) (qLeft_dagger g hg) _ hm
  have e : (fun x : Fin 4 → ℝ => ENNReal.ofReal (Real.exp (-∑ i, (qLeft g.dagger x) i ^ 2 / (2 * (s : ℝ)))))
      = fun p : Fin 4 → ℝ => ENNReal.ofReal (Real.exp (-∑ i, p i ^ 2 / (2 * (s : ℝ)))) := by
    funext x
    rw [← Finset.sum_div, ← Finset.sum_div, qLeft_norm _ (by rw [dagger_det, hg])]
  rw [e] at h1
  have hmL : Measurable (qLeft g) := (LinearMap.continuous_of_finiteDimensional (qLeft g)).measurable
  have h2 : (Measure.pi fun _ : Fin 4 => gaussianReal 0 s).map (qLeft g) =
      ENNReal.ofReal |(LinearMap.det (qLeft g))⁻¹| • Measure.pi fun _ : Fin 4 => gaussianReal 0 s := by
    rw [hpi, Measure.map_smul, h1, smul_comm]
  have h3 : ENNReal.ofReal |(LinearMap.det (qLeft g))⁻¹| = 1 := by
    have h4 := congrArg (fun m => m Set.univ) h2
    simp only [Measure.smul_apply, measure_univ, smul_eq_mul, mul_one] at h4
    rw [Measure.map_apply hmL MeasurableSet.univ, Set.preimage_univ, measure_univ] at h4
    exact h4.symm
  rw [h2, h3, one_smul]

theorem div_det {x : SU2} (h : 0 < x.det) : (x.div (Real.sqrt x.det)).det = 1 := by
  have h1 : (x.div (Real.sqrt x.det)).det = x.det / (Real.sqrt x.det * Real.sqrt x.det) := by
    unfold SU2.div SU2.det
    have := (Real.sqrt_pos.2 h).ne'
    unfold SU2.det at this
    field_simp
  rw [h1, Real.mul_self_sqrt h.le, div_self h.ne']

open Classical in
/-- The normalised element as a matrix in SU(2); for zero, which has no direction, the unit matrix. -/
noncomputable def toSU (v : Fin 4 → ℝ) : SUN 2 :=
  if h : v = 0 then 1
  else ⟨((qOf v).div (Real.sqrt (qOf v).det)).toMatrix, (C28_group.1 _).2 (div_det (qOf_det_pos h))⟩

theorem toSU_measurable : Measurable toSU := by
  refine measurable_of_continuousOn_compl_singleton 0 ?_
  rw [continuousOn_iff_continuous_domRestrict]
  have e : Set.domRestrict ({0}ᶜ) toSU = fun v : ({0}ᶜ : Set (Fin 4 → ℝ)) =>
      (⟨((qOf v.1).div (Real.sqrt (qOf v.1).det)).toMatrix, (C28_group.1 _).2 (div_det (qOf_det_pos v.2))⟩ : SUN 2) := by
    funext v
    have hv : v.1 ≠ 0 := v.2
    show toSU v.1 = _
    unfold toSU
    rw [dif_neg hv]
  rw [e]
  refine Continuous.subtype_mk ?_ _
  have hpos : ∀ v : ({0}ᶜ : Set (Fin 4 → ℝ)), Real.sqrt (∑ i, v.1 i ^ 2) ≠ 0 := fun v => by
    rw [← qOf_det]; exact (Real.sqrt_pos.2 (qOf_det_pos v.2)).ne'
  have hc : ∀ i, Continuous fun v : ({0}ᶜ : Set (Fin 4 → ℝ)) => v.1 i / Real.sqrt (∑ i, v.1 i ^ 2) := fun i =>
    ((continuous_apply i).comp continuous_subtype_val).div
      ((show Continuous fun v : Fin 4 → ℝ => Real.sqrt (∑ i, v i ^ 2) by fun_prop).comp continuous_subtype_val) hpos
  have hz : ∀ i j, Continuous fun v : ({0}ᶜ : Set (Fin 4 → ℝ)) =>
      (⟨v.1 i / Real.sqrt (∑ i, v.1 i ^ 2), v.1 j / Real.sqrt (∑ i, v.1 i ^ 2)⟩ : ℂ) := fun i j =>
    Complex.equivRealProdCLM.symm.continuous.comp ((hc i).prodMk (hc j))
  have hz2 : ∀ i j, Continuous fun v : ({0}ᶜ : Set (Fin 4 → ℝ)) =>
      (⟨-(v.1 i / Real.sqrt (∑ i, v.1 i ^ 2)), v.1 j / Real.sqrt (∑ i, v.1 i ^ 2)⟩ : ℂ) := fun i j =>
    Complex.equivRealProdCLM.symm.continuous.comp ((hc i).neg.prodMk (hc j))
  have hz3 : ∀ i j, Continuous fun v : ({0}ᶜ : Set (Fin 4 → ℝ)) =>
      (⟨v.1 i / Real.sqrt (∑ i, v.1 i ^ 2), -(v.1 j / Real.sqrt (∑ i, v.1 i ^ 2))⟩ : ℂ) := fun i j =>
    Complex.equivRealProdCLM.symm.continuous.comp ((hc i).prodMk (hc j).neg)
  refine continuous_matrix fun i j => ?_
  simp only [SU2.toMatrix, SU2.div, qOf_det]
  fin_cases i <;> fin_cases j
  · exact hz 3 2
  · exact hz 1 0
  · exact hz2 1 0
  · exact hz3 3 2

theorem toSU_left (q : SU2) (hq : q.det = 1) (g : SUN 2) (hg : q.toMatrix = g.1) {v : Fin 4 → ℝ} (hv : v ≠ 0) :
    toSU (qLeft q v) = g * toSU v := by
  have hv2 : qLeft q v ≠ 0 := fun e => hv (by
    have := qLeft_dagger q hq v
    rw [e, map_zero] at this; exact this.symm)
  refine Subtype.ext ?_
  show (toSU (qLeft q v)).1 = g.1 * (toSU v).1
  unfold toSU
  rw [dif_neg hv, dif_neg hv2, ← hg]
  simp only []
  rw [← toMatrix_mul]
  congr 1
  have e1 : qOf (qLeft q v) = q.mul (qOf v) := qOf_qVec _
  rw [e1, det_mul, hq, one_mul]
  unfold SU2.mul SU2.div
  ext <;> simp <;> ring

theorem gauss_ne_zero (s : NNReal) (hs : s ≠ 0) : ∀ᵐ v ∂(Measure.pi fun _ : Fin 4 => gaussianReal 0 s), v ≠ 0 := by
  have h1 : ∀ᵐ x ∂(gaussianReal 0 s), x ≠ 0 := by
    have := nullSingletonClass_gaussianReal (μ := 0) hs
    exact Measure.ae_ne _ _
  have h2 := (measurePreserving_eval (fun _ : Fin 4 => gaussianReal 0 s) 0).quasiMeasurePreserving.ae h1
  filter_upwards [h2] with v hv e
  exact hv (by rw [e]; rfl)

/-- A normalised gaussian vector is distributed evenly over the group. -/
theorem gauss_haar (s : NNReal) (hs : s ≠ 0) (haar : Measure (SUN 2)) [IsProbabilityMeasure haar] [haar.IsMulLeftInvariant] :
    (Measure.pi fun _ : Fin 4 => gaussianReal 0 s).map toSU = haar := by
  set γ := Measure.pi fun _ : Fin 4 => gaussianReal 0 s with hγ
  have hp : IsProbabilityMeasure (γ.map toSU) := Measure.isProbabilityMeasure_map toSU_measurable.aemeasurable
  have hinv : (γ.map toSU).IsMulLeftInvariant := by
    refine ⟨fun g => ?_⟩
    obtain ⟨q, hq, _⟩ := C28_group.2.1 g.1 g.2
    have hd : q.det = 1 := (C28_group.1 q).1 (by rw [hq]; exact g.2)
    have hmL : Measurable (qLeft q) := (LinearMap.continuous_of_finiteDimensional (qLeft q)).measurable
    rw [Measure.map_map (measurable_const_mul g) toSU_measurable]
    have h1 : γ.map ((fun x => g * x) ∘ toSU) = γ.map (toSU ∘ qLeft q) := by
      refine Measure.map_congr ?_
      filter_upwards [gauss_ne_zero s hs] with v hv
      exact (toSU_left q hd g hq hv).symm
    rw [h1, ← Measure.map_map toSU_measurable hmL, gauss_rotate s hs q hd]
  have ha1 : (γ.map toSU).IsHaarMeasure :=
    Measure.isHaarMeasure_of_isCompact_nonempty_interior _ Set.univ isCompact_univ (by simp) (by simp) (by simp)
  have ha2 : haar.IsHaarMeasure :=
    Measure.isHaarMeasure_of_isCompact_nonempty_interior _ Set.univ isCompact_univ (by simp) (by simp) (by simp)
  exact Measure.isHaarMeasure_eq_of_isProbabilityMeasure _ _

/-- The four normal numbers of a program that makes two calls of `gaussrand2`, in any order. -/
theorem four_law (w : ℝ) (σ : Fin 4 → Fin 4) (hσ : Function.Injective σ) :
    uniformStream.map (fun u (i : Fin 4) => normals u (σ i) * w) = Measure.pi fun _ : Fin 4 => gaussianReal 0 (w ^ 2).toNNReal :=
  normals_select (fun i => (σ i : ℕ)) (fun _ _ h => hσ (Fin.ext h)) (fun _ => w)

/-- C86 (SU2). `SU2::random`, with any width that is not zero, is almost surely defined and gives elements of SU(2) with the invariant
distribution. -/
theorem C86_su2_random (fuel : ℕ) (hf : 0 < fuel) (w : ℝ) (hw : w ≠ 0) (haar : Measure (SUN 2)) [IsProbabilityMeasure haar] [haar.IsMulLeftInvariant] :
    ∃ res : (ℕ → ℝ) → SUN 2,
      (∀ᵐ u ∂uniformStream, ∃ x s', su2Random fuel w (GRng.start u) = some (x, s') ∧ x.toMatrix = (res u).1) ∧ uniformStream.map res = haar := by
  have hs : (w ^ 2).toNNReal ≠ 0 := by
    rw [Ne, Real.toNNReal_eq_zero, not_le]; positivity
  have hlaw := four_law w id Function.injective_id
  have hVm : Measurable fun (u : ℕ → ℝ) (i : Fin 4) => normals u (id i : Fin 4) * w := by
    refine measurable_pi_lambda _ fun i => ?_
    exact ((measurable_pi_apply _).comp normals_measurable).mul_const w
  refine ⟨fun u => toSU fun i : Fin 4 => normals u (id i : Fin 4) * w, ?_, ?_⟩
  · have hne : ∀ᵐ u ∂uniformStream, (fun i : Fin 4 => normals u (id i : Fin 4) * w) ≠ 0 := by
      have := gauss_ne_zero _ hs
      rw [← hlaw] at this
      exact ae_of_ae_map hVm.aemeasurable this
    filter_upwards [draws_ae (su2Gauss_draws false fuel hf w), hne] with u ⟨a, s', e, r⟩ hn
    have hq : a = qOf fun i : Fin 4 => normals u (id i : Fin 4) * w := by
      have : [a.a, a.b, a.c, a.d] = [normals u 0 * w, normals u 1 * w, normals u 2 * w, normals u 3 * w] := r
      simp only [List.cons.injEq, and_true] at this
      obtain ⟨h1, h2, h3, h4⟩ := this
      ext
      · exact h1
      · exact h2
      · exact h3
      · exact h4
    have hpos : 0 < a.det := by rw [hq]; exact qOf_det_pos hn
    refine ⟨a.div (Real.sqrt a.det), s', ?_, ?_⟩
    · unfold su2Random
      rw [e]
      simp only [Option.bind_some, SU2.normalize]
      rw [if_neg (Real.sqrt_pos.2 hpos).ne', Option.bind_some]
    · rw [hq]; unfold toSU; rw [dif_neg hn]
  · have : (fun u : ℕ → ℝ => toSU fun i : Fin 4 => normals u (id i : Fin 4) * w) = toSU ∘ fun u (i : Fin 4) => normals u (id i : Fin 4) * w := rfl
    rw [this, ← Measure.map_map toSU_measurable hVm, hlaw, gauss_haar _ hs haar]

/-- C86 (SU<2>). The matrices of `SU<2>::random` are almost surely defined and have the invariant distribution of SU(2). -/
theorem C86_sutwo_random (gpu : Bool) (fuel : ℕ) (hf : 0 < fuel) (c : ℕ → ℝ) (haar : Measure (SUN 2)) [IsProbabilityMeasure haar]
    [haar.IsMulLeftInvariant] :
    ∃ res : (ℕ → ℝ) → SUN 2,
      (∀ᵐ u ∂uniformStream, ∃ s', suTwoRandom gpu fuel c (GRng.start u) = some ((res u).1, s')) ∧ uniformStream.map res = haar := by
  have hs : ((1 : ℝ) ^ 2).toNNReal ≠ 0 := by simp
  let σ : Fin 4 → Fin 4 := ![1, 2, 3, 0]
  have hlaw := four_law 1 σ (by decide)
  have hVm : Measurable fun (u : ℕ → ℝ) (i : Fin 4) => normals u (σ i) * 1 := by
    refine measurable_pi_lambda _ fun i => ?_
    exact ((measurable_pi_apply _).comp normals_measurable).mul_const 1
  refine ⟨fun u => toSU fun i : Fin 4 => normals u (σ i) * 1, ?_, ?_⟩
  · have hne : ∀ᵐ u ∂uniformStream, (fun i : Fin 4 => normals u (σ i) * 1) ≠ 0 := by
      have := gauss_ne_zero _ hs
      rw [← hlaw] at this
      exact ae_of_ae_map hVm.aemeasurable this
    filter_upwards [draws_ae (matGaussReal_draws gpu fuel hf 1 4 c), hne] with u ⟨a, s', e, r⟩ hn
    have hr : [a 0, a 1, a 2, a 3] = [normals u 0 * 1, normals u 1 * 1, normals u 2 * 1, normals u 3 * 1] := r
    simp only [List.cons.injEq, and_true] at hr
    obtain ⟨h0, h1, h2, h3⟩ := hr
    have hq : (⟨a 1, a 2, a 3, a 0⟩ : SU2) = qOf fun i : Fin 4 => normals u (σ i) * 1 := by
      ext
      · exact h1
      · exact h2
      · exact h3
      · exact h0
    have hdet : a 0 * a 0 + a 1 * a 1 + a 2 * a 2 + a 3 * a 3 = (⟨a 1, a 2, a 3, a 0⟩ : SU2).det := by unfold SU2.det; ring
    have hpos : 0 < (⟨a 1, a 2, a 3, a 0⟩ : SU2).det := by rw [hq]; exact qOf_det_pos hn
    refine ⟨s', ?_⟩
    unfold suTwoRandom
    rw [e]
    simp only [Option.bind_some]
    rw [hdet, if_neg (Real.sqrt_pos.2 hpos).ne']
    congr 2
    unfold toSU
    rw [dif_neg hn]
    show _ = ((qOf fun i : Fin 4 => normals u (σ i) * 1).div (Real.sqrt (qOf fun i : Fin 4 => normals u (σ i) * 1).det)).toMatrix
    rw [← hq]
    rfl
  · have : (fun u : ℕ → ℝ => toSU fun i : Fin 4 => normals u (σ i) * 1) = toSU ∘ fun u (i : Fin 4) => normals u (σ i) * 1 := rfl
    rw [this, ← Measure.map_map toSU_measurable hVm, hlaw, gauss_haar _ hs haar]

/-- C86: SU(2) has an invariant distribution. -/
example : ∃ haar : Measure (SUN 2), IsProbabilityMeasure haar ∧ haar.IsMulLeftInvariant := by
  let μ := Measure.haarMeasure (⊤ : TopologicalSpace.PositiveCompacts (SUN 2))
  exact ⟨μ, ⟨by have := Measure.haarMeasure_self (K₀ := (⊤ : TopologicalSpace.PositiveCompacts (SUN 2))); simpa using this⟩, inferInstance⟩

/-! ### Momenta -/

/-- The calls of `E[d][X].gaussian_random()` (suN_hmc.cpp:480) for `m` links, with the default width and any content of the memory. -/
noncomputable def momentumReqs (K m : ℕ) (c : ℕ → ℝ) : List GReq := List.replicate m (.rmat (Real.sqrt 2) K c)

theorem momentum_widths (K m : ℕ) (c : ℕ → ℝ) : allWidths (momentumReqs K m c) = List.replicate (m * K) (Real.sqrt 2) := by
  unfold momentumReqs allWidths
  induction m with
  | zero => simp
  | succ m ih => rw [List.replicate_succ, List.flatMap_cons, ih, GReq.widths, List.replicate_append_replicate, Nat.succ_mul, Nat.add_comm]

/-- C86 (momenta). The momenta that a turn of suN_hmc draws, for all links in any order of the links, have the distribution that the
correctness of the algorithm needs (`C85_app`): independent components of variance 2. -/
theorem C86_momenta {ι : Type} [Fintype ι] (K m : ℕ) (order : ι ≃ Fin m) (c : ℕ → ℝ) (gpu : Bool) (fuel : ℕ) (hf : 0 < fuel) :
    uniformStream.map (fun u (i : ι) (k : Fin K) =>
        (resultOr [] (execAll gpu fuel (momentumReqs K m c) (GRng.start u))).getD ((order i : ℕ) * K + k) 0) =
      Measure.pi fun _ : ι => Measure.pi fun _ : Fin K => gaussianReal 0 2 := by
  have hmain := (C86_normal gpu fuel hf (momentumReqs K m c)).2
  have hlen : (allWidths (momentumReqs K m c)).length = m * K := by rw [momentum_widths, List.length_replicate]
  have hvar : (fun i : Fin (allWidths (momentumReqs K m c)).length => gaussianReal 0 ((allWidths (momentumReqs K m c))[i] ^ 2).toNNReal)
      = fun _ => gaussianReal 0 2 := by
    funext i
    have : (allWidths (momentumReqs K m c))[i] = Real.sqrt 2 := by
      simp only [Fin.getElem_fin, momentum_widths, List.getElem_replicate]
    rw [this, Real.sq_sqrt (by norm_num)]
    congr 1
    exact Real.toNNReal_ofNat 2
  rw [hvar] at hmain
  let f : ι × Fin K → Fin (allWidths (momentumReqs K m c)).length := fun p =>
    ⟨(order p.1 : ℕ) * K + p.2, by
      rw [hlen]
      calc (order p.1 : ℕ) * K + p.2 < (order p.1 : ℕ) * K + K := by have := p.2.2; omega
        _ = ((order p.1 : ℕ) + 1) * K := by ring
        _ ≤ m * K := Nat.mul_le_mul_right _ (order p.1).2⟩
  have hinj : Function.Injective f := by
    rintro ⟨i, k⟩ ⟨j, l⟩ h
    have h1 : (order i : ℕ) * K + k = (order j : ℕ) * K + l := congrArg Fin.val h
    have hK : 0 < K := lt_of_le_of_lt (Nat.zero_le _) k.2
    have h2 : ((order i : ℕ) * K + k) / K = ((order j : ℕ) * K + l) / K := by rw [h1]
    rw [Nat.mul_comm, Nat.mul_add_div hK, Nat.mul_comm, Nat.mul_add_div hK, Nat.div_eq_of_lt k.2, Nat.div_eq_of_lt l.2] at h2
    have h3 : order i = order j := Fin.ext (by omega)
    have h4 : i = j := order.injective h3
    subst h4
    simp only [Prod.mk.injEq, true_and]
    exact Fin.ext (by omega)
  have h1 := Measure.map_infinitePi_infinitePi_of_inj (P := fun _ : Fin (allWidths (momentumReqs K m c)).length => gaussianReal 0 2) hinj
  have h2 := Measure.infinitePi_map_curry (ι := ι) (κ := Fin K) (fun _ _ => gaussianReal 0 2)
  simp only [Measure.infinitePi_eq_pi] at h1 h2
  have hm1 : AEMeasurable (fun u (i : Fin (allWidths (momentumReqs K m c)).length) =>
      (resultOr [] (execAll gpu fuel (momentumReqs K m c) (GRng.start u))).getD i 0) uniformStream := by
    by_contra hc
    rw [Measure.map_of_not_aemeasurable hc] at hmain
    have := congrArg (fun μ => μ Set.univ) hmain
    simp at this
  rw [← h2, ← h1, ← hmain, AEMeasurable.map_map_of_aemeasurable (Measurable.aemeasurable (by fun_prop)) hm1,
    AEMeasurable.map_map_of_aemeasurable (Measurable.aemeasurable (by fun_prop)) (Measurable.comp_aemeasurable (by fun_prop) hm1)]
  rfl

/-- C86: the momenta of SU(3) on two links. -/
example : ∃ E : (ℕ → ℝ) → Fin 2 → Fin 8 → ℝ, uniformStream.map E = Measure.pi fun _ => Measure.pi fun _ => gaussianReal 0 2 :=
  ⟨_, C86_momenta 8 2 (Equiv.refl _) (fun _ => 0) false 1 one_pos⟩

end Hila
