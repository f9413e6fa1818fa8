import Verif.Lemmas.HmcChain
import Verif.Lemmas.PiDensity
import Verif.Lemmas.SUMeasure
import Verif.Model.SampleSpec
import Verif.Props.Force
import Verif.Props.Reunit
import Mathlib.MeasureTheory.Measure.Lebesgue.EqHaar

/-!
# C85: hybrid Monte Carlo keeps the distribution of the action
-/

namespace Hila

open MeasureTheory ENNReal

/-! ### The library -/

section library
variable {ι G A X Ω : Type} [Fintype ι] [Group G] [MeasurableSpace G] [MeasurableMul₂ G] [AddCommGroup A] [Module ℝ A] [MeasurableSpace A]
  [MeasurableAdd₂ A] [MeasurableNeg A] [MeasurableConstSMul ℝ A] [MeasurableSpace X] [MeasurableSpace Ω]

open Classical in
theorem hmc_levels (haar : Measure G) [SigmaFinite haar] [haar.IsMulLeftInvariant] (v : Measure A) [SigmaFinite v] [v.IsAddLeftInvariant]
    [v.IsNegInvariant] (lam : Measure X) [SFinite lam] (ex : A → G) (hexm : Measurable ex) (hex : ∀ x, ex (-x) * ex x = 1)
    (norm2 : (ι → A) → ℝ) (hn2 : Measurable norm2) (hneg : ∀ p, norm2 (-p) = norm2 p)
    (γ : Measure (ι → A)) [IsProbabilityMeasure γ] (c : ℝ≥0∞)
    (hγ : γ = c • (Measure.pi fun _ => v).withDensity fun p => ENNReal.ofReal (Real.exp (-norm2 p)))
    (ls : List (HmcLevel ι G A X Ω)) {S : (ι → G) → X → ℝ} (hS : Measurable fun z : (ι → G) × X => S z.1 z.2)
    (hF : ∀ l ∈ ls, Measurable fun z : (ι → G) × X => l.F z.1 z.2)
    (ν : Measure Ω) [IsProbabilityMeasure ν] {draw : (ι → G) → Ω → X} (hd : Measurable (Function.uncurry draw))
    {w : (ι → G) → ℝ≥0∞} (hwm : Measurable w) (hw0 : ∀ U, w U ≠ 0) (hwt : ∀ U, w U ≠ ∞)
    (hdraw : ∀ U, ν.map (draw U) = (w U)⁻¹ • lam.withDensity fun φ => ENNReal.ofReal (Real.exp (-S U φ)))
    (eps : ℝ) (k : ℕ) {H : (ι → G) × ((ι → A) × X) → ℝ} (hH : ∀ z, H z = S z.1 z.2.2 + norm2 z.2.1)
    {acc : Set (ℝ × ℝ)} (hacc : MeasurableSet acc) (hae : ∀ a : ℝ, ∀ᵐ r ∂volume.restrict (Set.Ico (0 : ℝ) 1), ((r, a) ∈ acc ↔ r < a)) :
    KeepsDistribution (ν.prod (γ.prod unif01)) ((Measure.pi fun _ => haar).withDensity w)
      (fun q => if (q.2.2.2, Real.exp (-(H ((levelStep ex ls eps)^[k] (q.1, (q.2.2.1, draw q.1 q.2.1))) - H (q.1, (q.2.2.1, draw q.1 q.2.1))))) ∈ acc
        then ((levelStep ex ls eps)^[k] (q.1, (q.2.2.1, draw q.1 q.2.1))).1 else q.1) := by
  have hT := (levelStep_preserving haar v lam ex hexm ls hF eps).iterate k
  have hTm := hT.measurable
  have hHm : Measurable H := by
    have e : H = fun z => S z.1 z.2.2 + norm2 z.2.1 := funext hH
    rw [e]
    have : Measurable fun z : (ι → G) × ((ι → A) × X) => S z.1 z.2.2 := hS.comp (measurable_fst.prodMk measurable_snd.snd)
    fun_prop
  have hz : Measurable fun q : (ι → G) × (Ω × ((ι → A) × ℝ)) => (q.1, (q.2.2.1, draw q.1 q.2.1)) := by
    have : Measurable fun q : (ι → G) × (Ω × ((ι → A) × ℝ)) => draw q.1 q.2.1 := hd.comp (measurable_fst.prodMk measurable_snd.fst)
    fun_prop
  have hω : Nonempty Ω := by
    by_contra h
    have : IsEmpty Ω := not_nonempty_iff.1 h
    have h1 : ν Set.univ = 1 := measure_univ
    rw [Set.univ_eq_empty_iff.2 this, measure_empty] at h1
    exact zero_ne_one h1
  refine ⟨?_, ?_⟩
  · refine Measurable.ite ?_ (hTm.comp hz).fst measurable_fst
    have h1 : Measurable fun q : (ι → G) × (Ω × ((ι → A) × ℝ)) => H ((levelStep ex ls eps)^[k] (q.1, (q.2.2.1, draw q.1 q.2.1))) :=
      hHm.comp (hTm.comp hz)
    have h2 : Measurable fun q : (ι → G) × (Ω × ((ι → A) × ℝ)) => H (q.1, (q.2.2.1, draw q.1 q.2.1)) := hHm.comp hz
    have : Measurable fun q : (ι → G) × (Ω × ((ι → A) × ℝ)) =>
      (q.2.2.2, Real.exp (-(H ((levelStep ex ls eps)^[k] (q.1, (q.2.2.1, draw q.1 q.2.1))) - H (q.1, (q.2.2.1, draw q.1 q.2.1))))) := by fun_prop
    exact this hacc
  · exact hmc_invariant (Measure.pi fun _ : ι => haar) (Measure.pi fun _ : ι => v) lam hS hn2 hγ hd hwm hw0 hwt hdraw hT
      (fl := fun p => -p) (Measure.measurePreserving_neg _) hneg (levelStep_reverse ex hex ls hω.some eps k) neg_neg hH hacc hae

/-- C85 (library). `update_hmc` with any hierarchy of integrators, any number of steps and any length of the trajectory keeps the
distribution of the links with weight `w(U) = ∫ exp(-S(U, φ)) dφ`, where `S` is the sum of the actions of all levels and `φ` are the
fields the action terms own. It is assumed that the measure of the links is invariant under multiplication from the left, that the
momenta are drawn with weight `exp(-norm2)` and the fields `φ` with weight `exp(-S(U, φ))`, and that the exponential of the opposite
is the inverse. Nothing is assumed about the forces (but measurability). -/
theorem C85_library (haar : Measure G) [SigmaFinite haar] [haar.IsMulLeftInvariant] (v : Measure A) [SigmaFinite v] [v.IsAddLeftInvariant]
    [v.IsNegInvariant] (lam : Measure X) [SFinite lam] (ex : A → G) (hexm : Measurable ex) (hex : ∀ x, ex (-x) * ex x = 1)
    (norm2 : (ι → A) → ℝ) (hn2 : Measurable norm2) (hneg : ∀ p, norm2 (-p) = norm2 p)
    (γ : Measure (ι → A)) [IsProbabilityMeasure γ] (c : ℝ≥0∞)
    (hγ : γ = c • (Measure.pi fun _ => v).withDensity fun p => ENNReal.ofReal (Real.exp (-norm2 p)))
    (ls : List (HmcLevel ι G A X Ω)) (hS : ∀ l ∈ ls, Measurable fun z : (ι → G) × X => l.S z.1 z.2)
    (hF : ∀ l ∈ ls, Measurable fun z : (ι → G) × X => l.F z.1 z.2)
    (ν : Measure Ω) [IsProbabilityMeasure ν] (s0 : GaugeState ι G A X)
    (hd : Measurable fun q : (ι → G) × Ω => drawAll ls q.1 s0.extra q.2)
    {w : (ι → G) → ℝ≥0∞} (hwm : Measurable w) (hw0 : ∀ U, w U ≠ 0) (hwt : ∀ U, w U ≠ ∞)
    (hdraw : ∀ U, ν.map (drawAll ls U s0.extra) =
      (w U)⁻¹ • lam.withDensity fun φ => ENNReal.ofReal (Real.exp (-(ls.map fun l => l.S U φ).sum)))
    (steps : ℤ) (len : ℝ) (others : ℕ → ℝ) :
    KeepsDistribution (ν.prod (γ.prod unif01)) ((Measure.pi fun _ => haar).withDensity w)
      (fun q => (updateHMC Real.exp (hmcBuild ex norm2 q.2.2.1 q.2.1 ls) steps len (fun k => if k = 0 then q.2.2.2 else others k)
        ⟨q.1, s0.momentum, s0.backup, s0.extra⟩).state.gauge) ∧
    ∀ U, w U = ∫⁻ φ, ENNReal.ofReal (Real.exp (-(ls.map fun l => l.S U φ).sum)) ∂lam := by
  have hSm : Measurable fun z : (ι → G) × X => totalAction ls z.1 z.2 := by
    clear hdraw hd hF
    induction ls with
    | nil => exact measurable_const
    | cons l ls ih =>
      have : (fun z : (ι → G) × X => totalAction (l :: ls) z.1 z.2) = fun z => l.S z.1 z.2 + totalAction ls z.1 z.2 := by
        funext z; simp [totalAction]
      rw [this]
      exact (hS l List.mem_cons_self).add (ih fun k hk => hS k (List.mem_cons_of_mem _ hk))
  constructor
  · have key := hmc_levels haar v lam ex hexm hex norm2 hn2 hneg γ c hγ ls (S := totalAction ls) hSm hF ν
      (draw := fun U ω => drawAll ls U s0.extra ω) hd hwm hw0 hwt hdraw (len / (steps : ℝ)) steps.toNat
      (H := fun z => totalAction ls z.1 z.2.2 + norm2 z.2.1) (fun _ => rfl) (acc := {y | y.1 < y.2})
      (measurableSet_lt measurable_fst measurable_snd) (fun a => Filter.Eventually.of_forall fun r => Iff.rfl)
    refine (congrArg (KeepsDistribution (ν.prod (γ.prod unif01)) ((Measure.pi fun _ => haar).withDensity w)) (funext fun q => ?_)).mpr key
    have hI := build_hierarchy ex norm2 q.2.2.1 q.2.1 ls
    unfold updateHMC
    dsimp only
    rw [build_draw, hierarchy_backup ex _ hI]
    rw [show (⟨q.1, q.2.2.1, q.1, drawAll ls q.1 s0.extra q.2.1⟩ : GaugeState ι G A X) =
      ofTriple q.1 (q.1, (q.2.2.1, drawAll ls q.1 s0.extra q.2.1)) from rfl,
      iterate_conj (ofTriple q.1) _ _ (build_step ex norm2 q.2.2.1 q.2.1 ls (len / (steps : ℝ)) q.1) steps.toNat, build_action, build_action,
      hierarchy_restore ex _ hI, apply_ite HMCResult.state, apply_ite GaugeState.gauge]
    exact if_congr decide_eq_true_iff rfl rfl
  · intro U
    have h := congrArg (fun m => m Set.univ) (hdraw U)
    have hdU : Measurable (drawAll ls U s0.extra) := hd.comp measurable_prodMk_left
    rw [Measure.map_apply hdU MeasurableSet.univ, Set.preimage_univ, measure_univ, Measure.smul_apply, withDensity_apply _ MeasurableSet.univ,
      setLIntegral_univ, smul_eq_mul] at h
    have h2 := congrArg (fun t => w U * t) h
    rwa [mul_one, ← mul_assoc, ENNReal.mul_inv_cancel (hw0 U) (hwt U), one_mul] at h2

end library

/-! ### Pseudofermions -/

theorem map_linear_density {κ : Type} [Fintype κ] (M L : (κ → ℝ) →ₗ[ℝ] (κ → ℝ)) (hL : ∀ x, L (M x) = x) (f : (κ → ℝ) → ℝ≥0∞) (hf : Measurable f) :
    ((volume : Measure (κ → ℝ)).withDensity f).map M = ENNReal.ofReal |(LinearMap.det M)⁻¹| • (volume.withDensity fun x => f (L x)) := by
  have hMm : Measurable M := (LinearMap.continuous_of_finiteDimensional M).measurable
  have hLm : Measurable L := (LinearMap.continuous_of_finiteDimensional L).measurable
  have hdet : LinearMap.det M ≠ 0 := by
    have h : L * M = 1 := LinearMap.ext hL
    have h2 := congrArg LinearMap.det h
    rw [map_mul, map_one] at h2
    exact right_ne_zero_of_mul_eq_one h2
  refine Measure.ext_of_lintegral _ fun g hg => ?_
  have hfL : Measurable fun x => f (L x) := hf.comp hLm
  have hfg : Measurable fun x => f (L x) * g x := hfL.mul hg
  have hgM : Measurable fun x => g (M x) := hg.comp hMm
  rw [lintegral_map hg hMm, lintegral_withDensity_eq_lintegral_mul _ hf hgM, lintegral_smul_measure,
    lintegral_withDensity_eq_lintegral_mul _ hfL hg]
  have e : ∀ x, (f * fun a => g (M a)) x = f (L (M x)) * g (M x) := fun x => by rw [hL]; rfl
  rw [lintegral_congr e, ← lintegral_map (f := fun y => f (L y) * g y) hfg hMm, Measure.map_linearMap_addHaar_eq_smul_addHaar volume hdet,
    lintegral_smul_measure]
  rfl

section fermions
variable {ι G A κ : Type} [Fintype ι] [Fintype κ] [Group G] [MeasurableSpace G] [MeasurableMul₂ G] [AddCommGroup A] [Module ℝ A] [MeasurableSpace A]
  [MeasurableAdd₂ A] [MeasurableNeg A] [MeasurableConstSMul ℝ A]

/-- C85 (pseudofermions). If the pseudofermion is drawn as `φ = M(U) η` with independent gaussian components `η` of variance 1/2 and
its action is `|M(U)⁻¹ φ|²`, then `update_hmc` keeps the distribution of the links with weight `|det M(U)| exp(-S(U))`, where `S` is the
action of the other levels. `κ` numbers the real and imaginary parts, so that the determinant is that of `M(U)† M(U)` as a complex
matrix. The library draws with variance 1 instead (`C85_fermion_width_wrong`). -/
theorem C85_pseudofermions (haar : Measure G) [SigmaFinite haar] [haar.IsMulLeftInvariant] (v : Measure A) [SigmaFinite v] [v.IsAddLeftInvariant]
    [v.IsNegInvariant] (ex : A → G) (hexm : Measurable ex) (hex : ∀ x, ex (-x) * ex x = 1)
    (norm2 : (ι → A) → ℝ) (hn2 : Measurable norm2) (hneg : ∀ p, norm2 (-p) = norm2 p)
    (γ : Measure (ι → A)) [IsProbabilityMeasure γ] (c : ℝ≥0∞)
    (hγ : γ = c • (Measure.pi fun _ => v).withDensity fun p => ENNReal.ofReal (Real.exp (-norm2 p)))
    (ls : List (HmcLevel ι G A (κ → ℝ) (κ → ℝ))) (hS : ∀ l ∈ ls, Measurable fun z : (ι → G) × (κ → ℝ) => l.S z.1 z.2)
    (hF : ∀ l ∈ ls, Measurable fun z : (ι → G) × (κ → ℝ) => l.F z.1 z.2)
    (s0 : GaugeState ι G A (κ → ℝ)) (Sg : (ι → G) → ℝ) (hSg : Measurable Sg) (M L : (ι → G) → (κ → ℝ) →ₗ[ℝ] (κ → ℝ))
    (hL : ∀ U x, L U (M U x) = x) (hM : Measurable fun q : (ι → G) × (κ → ℝ) => M q.1 q.2)
    (hdet : Measurable fun U => LinearMap.det (M U))
    (haction : ∀ U φ, (ls.map fun l => l.S U φ).sum = Sg U + ∑ k, L U φ k ^ 2)
    (hdraw : ∀ U η, drawAll ls U s0.extra η = M U η)
    (steps : ℤ) (len : ℝ) (others : ℕ → ℝ) :
    KeepsDistribution ((Measure.pi fun _ : κ => ProbabilityTheory.gaussianReal 0 (1 / 2)).prod (γ.prod unif01))
      ((Measure.pi fun _ => haar).withDensity fun U => ENNReal.ofReal (|LinearMap.det (M U)| * Real.exp (-Sg U)))
      (fun q => (updateHMC Real.exp (hmcBuild ex norm2 q.2.2.1 q.2.1 ls) steps len (fun k => if k = 0 then q.2.2.2 else others k)
        ⟨q.1, s0.momentum, s0.backup, s0.extra⟩).state.gauge) := by
  have hd0 : ∀ U, LinearMap.det (M U) ≠ 0 := fun U => by
    have h : L U * M U = 1 := LinearMap.ext (hL U)
    have h2 := congrArg LinearMap.det h
    rw [map_mul, map_one] at h2
    exact right_ne_zero_of_mul_eq_one h2
  obtain ⟨a, ha, hg⟩ := gaussian_weight (1 / 2) (by norm_num)
  have hg2 : ProbabilityTheory.gaussianReal 0 (1 / 2) = a • volume.withDensity fun x : ℝ => ENNReal.ofReal (Real.exp (-(x ^ 2))) := by
    rw [hg]
    congr 2
    funext x
    congr 3
    norm_num
  have hpi := pi_weight (ι := κ) volume (fun x : ℝ => x ^ 2) (by fun_prop) (ProbabilityTheory.gaussianReal 0 (1 / 2)) a hg2
  have hvol : (Measure.pi fun _ : κ => (volume : Measure ℝ)) = (volume : Measure (κ → ℝ)) := rfl
  rw [hvol] at hpi
  have hfin : a ^ Fintype.card κ ≠ ∞ := ENNReal.pow_ne_top ha
  have hsf : SFinite (a ^ Fintype.card κ • (volume : Measure (κ → ℝ))) := inferInstance
  refine (C85_library haar v (a ^ Fintype.card κ • (volume : Measure (κ → ℝ))) ex hexm hex norm2 hn2 hneg γ c hγ ls hS hF
    (Measure.pi fun _ : κ => ProbabilityTheory.gaussianReal 0 (1 / 2)) s0 (by simp only [hdraw]; exact hM) (by fun_prop) (fun U => ?_)
    (fun U => ENNReal.ofReal_ne_top) (fun U => ?_) steps len others).1
  · have : 0 < |LinearMap.det (M U)| * Real.exp (-Sg U) := mul_pos (abs_pos.2 (hd0 U)) (Real.exp_pos _)
    exact (ENNReal.ofReal_pos.2 this).ne'
  · have e1 : drawAll ls U s0.extra = M U := funext (hdraw U)
    have hLm : Measurable (L U) := (LinearMap.continuous_of_finiteDimensional (L U)).measurable
    have hLk : ∀ k, Measurable fun φ => L U φ k := fun k => (measurable_pi_apply k).comp hLm
    rw [e1, hpi, Measure.map_smul, map_linear_density (M U) (L U) (hL U) _ (by fun_prop)]
    simp only [haction]
    have hm1 : Measurable fun φ : κ → ℝ => ENNReal.ofReal (Real.exp (-∑ k, L U φ k ^ 2)) := by fun_prop
    have e2 : (fun φ : κ → ℝ => ENNReal.ofReal (Real.exp (-(Sg U + ∑ k, L U φ k ^ 2)))) =
        ENNReal.ofReal (Real.exp (-Sg U)) • fun φ : κ → ℝ => ENNReal.ofReal (Real.exp (-∑ k, L U φ k ^ 2)) := by
      funext φ
      rw [neg_add, Real.exp_add, ENNReal.ofReal_mul (Real.exp_pos _).le]
      rfl
    rw [e2, withDensity_smul _ hm1, withDensity_smul_measure, smul_smul, smul_smul, smul_smul]
    congr 1
    rw [ENNReal.ofReal_mul (abs_nonneg _), ENNReal.mul_inv (Or.inr ENNReal.ofReal_ne_top) (Or.inl ENNReal.ofReal_ne_top), abs_inv,
      ENNReal.ofReal_inv_of_pos (abs_pos.2 (hd0 U))]
    have hE : (ENNReal.ofReal (Real.exp (-Sg U)))⁻¹ * ENNReal.ofReal (Real.exp (-Sg U)) = 1 :=
      ENNReal.inv_mul_cancel (ENNReal.ofReal_pos.2 (Real.exp_pos _)).ne' ENNReal.ofReal_ne_top
    rw [mul_assoc _ _ (ENNReal.ofReal (Real.exp (-Sg U))), hE, mul_one, mul_comm]

end fermions

/-! ### The application -/

section app
variable {n : ℕ} {L : Fin n → ℕ} {N : ℕ}

/-- The matrices of a field of group elements. -/
def asField (U : Fin n × PSite L → SUN N) : GField L N := fun d x => (U (d, x)).1

/-- The momenta of all links. -/
def asMomenta (P : Fin n × PSite L → Alg N) : AlgField L N := fun d x => P (d, x)

theorem expAlg_cont (hN : 0 < N) : Continuous (expAlg : Alg N → Mat N) := by
  let l : Alg N →ₗ[ℝ] Mat N := ⟨⟨expand, expand_add hN⟩, fun c a => by simpa using expand_smul hN c a⟩
  have h1 : Continuous l := LinearMap.continuous_of_finiteDimensional l
  let _ : NormedRing (Mat N) := Matrix.linftyOpNormedRing
  let _ : NormedAlgebra ℝ (Mat N) := Matrix.linftyOpNormedAlgebra
  let _ : NormedAlgebra ℚ (Mat N) := NormedAlgebra.restrictScalars ℚ ℝ (Mat N)
  exact NormedSpace.exp_continuous.comp h1

/-- The exponential function with values in the group. -/
noncomputable def expSU (hN : 0 < N) (a : Alg N) : SUN N := ⟨expAlg a, expAlg_mem hN a⟩

theorem expSU_measurable (hN : 0 < N) : Measurable (expSU hN) :=
  (Continuous.subtype_mk (expAlg_cont hN) _).measurable

theorem expSU_add (hN : 0 < N) (s t : ℝ) (a : Alg N) : expSU hN ((s + t) • a) = expSU hN (s • a) * expSU hN (t • a) :=
  Subtype.ext (expAlg_add_smul hN s t a)

theorem expSU_neg (hN : 0 < N) (a : Alg N) : expSU hN (-a) * expSU hN a = 1 := by
  have h := expSU_add hN (-1) 1 a
  rw [neg_add_cancel, zero_smul, neg_one_smul, one_smul] at h
  rw [← h]
  exact Subtype.ext (expAlg_zero hN)

/-- The level of the integrator for the force `F`. -/
noncomputable def appLevel (N' : ℕ) (beta : ℝ) (F : (Fin n × PSite L → SUN N) → Fin n × PSite L → Alg N) :
    HmcLevel (Fin n × PSite L) (SUN N) (Alg N) Unit Unit := ⟨false, 1, fun _ _ => 0, fun U _ i => (beta / N') • F U i, fun _ x _ => x⟩

theorem app_leapfrog (hN : 0 < N) (beta dt : ℝ) (F : (Fin n × PSite L → SUN N) → Fin n × PSite L → Alg N)
    (force : GField L N → AlgField L N → ℝ → Option (AlgField L N))
    (hforce : ∀ U E eps, force (asField U) (asMomenta E) eps = some (asMomenta fun i => E i + eps • F U i)) (k : ℕ)
    (U : Fin n × PSite L → SUN N) (P : Fin n × PSite L → Alg N) :
    (appSteps force expAlg beta dt k (appUpdateU expAlg (dt / 2) ⟨asField U, asMomenta P⟩)).bind (fun s =>
      (appUpdateE force (beta * dt) s).map fun s => appUpdateU expAlg (dt / 2) s) =
    some ⟨asField ((levelStep (expSU hN) [appLevel N beta F] dt)^[k + 1] (U, (P, ()))).1,
      asMomenta ((levelStep (expSU hN) [appLevel N beta F] dt)^[k + 1] (U, (P, ()))).2.1⟩ := by
  have hU : ∀ (δ : ℝ) (U : Fin n × PSite L → SUN N) (P : Fin n × PSite L → Alg N), appUpdateU expAlg δ ⟨asField U, asMomenta P⟩ =
      ⟨asField ((fun i => expSU hN (δ • P i)) * U), asMomenta P⟩ := fun δ U P => rfl
  have hE : ∀ (U : Fin n × PSite L → SUN N) (P : Fin n × PSite L → Alg N), appUpdateE force (beta * dt) ⟨asField U, asMomenta P⟩ =
      some ⟨asField U, asMomenta (P + fun i => dt • (beta / N) • F U i)⟩ := fun U P => by
    unfold appUpdateE
    dsimp only
    rw [hforce]
    simp only [Option.map_some, Option.some.injEq, RtState.mk.injEq, true_and]
    congr 1
    funext i
    simp only [Pi.add_apply, smul_smul]
    congr 2
    ring
  have hLF : ∀ (U : Fin n × PSite L → SUN N) (P : Fin n × PSite L → Alg N), levelStep (expSU hN) [appLevel N beta F] dt (U, (P, ())) =
      ((fun i => expSU hN ((dt / 2) • (P i + dt • (beta / N) • F ((fun i => expSU hN ((dt / 2) • P i)) * U) i))) *
        ((fun i => expSU hN ((dt / 2) • P i)) * U), (P + (fun i => dt • (beta / N) • F ((fun i => expSU hN ((dt / 2) • P i)) * U) i), ())) := fun U P => by
    have h2 : 1 / 2 * dt / ((1 : ℤ) : ℝ) = dt / 2 := by norm_num; ring
    simp only [levelStep, appLevel, Bool.false_eq_true, if_false, Function.comp, Int.toNat_one, Function.iterate_one, h2]
    rfl
  induction k generalizing U P with
  | zero =>
    rw [hU]
    simp only [appSteps, Option.bind_some, zero_add, Function.iterate_one]
    rw [hE, Option.map_some, hU, hLF]
    rfl
  | succ k ih =>
    rw [hU]
    simp only [appSteps]
    rw [hE, Option.bind_some, hU, Function.iterate_succ_apply, hLF]
    rw [← ih, hU]
    have e : (fun i => expSU hN (dt • (P + fun i => dt • (beta / N) • F ((fun i => expSU hN ((dt / 2) • P i)) * U) i) i)) *
        ((fun i => expSU hN ((dt / 2) • P i)) * U) =
      (fun i => expSU hN ((dt / 2) • (P + fun i => dt • (beta / N) • F ((fun i => expSU hN ((dt / 2) • P i)) * U) i) i)) *
        ((fun i => expSU hN ((dt / 2) • (P i + dt • (beta / N) • F ((fun i => expSU hN ((dt / 2) • P i)) * U) i))) *
          ((fun i => expSU hN ((dt / 2) • P i)) * U)) := by
      funext i
      simp only [Pi.mul_apply, Pi.add_apply]
      rw [← mul_assoc (expSU hN ((dt / 2) • (P i + _))), ← expSU_add, add_halves]
    rw [e]

theorem app_trajectory (hN : 0 < N) (beta dt : ℝ) (trajlen : ℤ) (F : (Fin n × PSite L → SUN N) → Fin n × PSite L → Alg N)
    (force : GField L N → AlgField L N → ℝ → Option (AlgField L N))
    (hforce : ∀ U E eps, force (asField U) (asMomenta E) eps = some (asMomenta fun i => E i + eps • F U i))
    (U : Fin n × PSite L → SUN N) (P : Fin n × PSite L → Alg N) :
    appTrajectory force expAlg beta dt trajlen ⟨asField U, asMomenta P⟩ =
    some ⟨asField ((levelStep (expSU hN) [appLevel N beta F] dt)^[(trajlen - 1).toNat + 1] (U, (P, ()))).1,
      asMomenta ((levelStep (expSU hN) [appLevel N beta F] dt)^[(trajlen - 1).toNat + 1] (U, (P, ()))).2.1⟩ := by
  have h := app_leapfrog hN beta dt F force hforce (trajlen - 1).toNat U P
  unfold appTrajectory
  cases h1 : appSteps force expAlg beta dt (trajlen - 1).toNat (appUpdateU expAlg (dt / 2) ⟨asField U, asMomenta P⟩) with
  | none => rw [h1] at h; simp at h
  | some s =>
    rw [h1, Option.bind_some] at h
    rw [Option.bind_some]
    cases h2 : appUpdateE force (beta * dt) s with
    | none => rw [h2] at h; simp at h
    | some t =>
      rw [h2, Option.map_some, Option.some.injEq] at h
      rw [Option.bind_some]
      dsimp only
      rw [h]
      dsimp only
      rw [allSome_some (F := asField _) fun d x => reunitarize_su hN (Subtype.property _)]
      rfl

theorem keeps_unit {C R : Type} [MeasurableSpace C] [MeasurableSpace R] {rnd : Measure R} [SFinite rnd] {π : Measure C} [SFinite π]
    {upd : C × (Unit × R) → C} (h : KeepsDistribution ((Measure.dirac ()).prod rnd) π upd) :
    KeepsDistribution rnd π fun q => upd (q.1, ((), q.2)) := by
  have h1 : MeasurePreserving (Prod.mk ()) rnd ((Measure.dirac ()).prod rnd) := ⟨measurable_prodMk_left, (Measure.dirac_prod ()).symm⟩
  have h2 := (MeasurePreserving.id π).prod h1
  refine ⟨h.1.comp h2.measurable, ?_⟩
  have h3 := h.2
  rw [← h2.map_eq, Measure.map_map h.1 h2.measurable] at h3
  exact h3

/-- C85 (application). A turn of suN_hmc with any action and a force that adds `eps` times a function of the links to the momenta keeps
the distribution with weight `exp(-β S)` of the links in SU(N): momenta with independent gaussian components of variance 2, the default
of `gaussian_random` of the algebra, any length and number of steps. The measured action that the turn hands to the next one is that of
its links. -/
theorem C85_app [∀ d, NeZero (L d)] (hN : 0 < N) (haar : Measure (SUN N)) [IsFiniteMeasure haar] [haar.IsMulLeftInvariant] (beta dt : ℝ) (trajlen : ℤ)
    (S : (Fin n × PSite L → SUN N) → ℝ) (hS : Measurable S) (F : (Fin n × PSite L → SUN N) → Fin n × PSite L → Alg N) (hF : Measurable F)
    (act : GField L N → Option ℝ) (hact : ∀ U, act (asField U) = some (S U))
    (force : GField L N → AlgField L N → ℝ → Option (AlgField L N))
    (hforce : ∀ U E eps, force (asField U) (asMomenta E) eps = some (asMomenta fun i => E i + eps • F U i)) :
    ∃ upd : (Fin n × PSite L → SUN N) × ((Fin n × PSite L → Alg N) × ℝ) → (Fin n × PSite L → SUN N),
      (∀ U P r, appTurn act force expAlg beta dt trajlen (asMomenta P) r (appStart act beta (asField U)) =
        some (appStart act beta (asField (upd (U, (P, r)))))) ∧
      KeepsDistribution ((Measure.pi fun _ => Measure.pi fun _ => ProbabilityTheory.gaussianReal 0 2).prod unif01)
        (boltzmann (Measure.pi fun _ => haar) fun U => beta * S U) upd := by
  classical
  set T := (levelStep (expSU hN) [appLevel N beta F] dt)^[(trajlen - 1).toNat + 1] with hTdef
  let norm2 : (Fin n × PSite L → Alg N) → ℝ := fun P => ∑ i, ∑ k, P i k ^ 2 / (2 * 2)
  let H : (Fin n × PSite L → SUN N) × ((Fin n × PSite L → Alg N) × Unit) → ℝ := fun z => beta * S z.1 + norm2 z.2.1
  have hnorm : ∀ P : Fin n × PSite L → Alg N, appE2 (asMomenta P) / 2 = norm2 P := fun P => by
    simp only [appE2, norm2, Alg.squarenorm, asMomenta]
    rw [Fintype.sum_prod_type, div_div, Finset.sum_div]
    refine Finset.sum_congr rfl fun d _ => ?_
    rw [Finset.sum_div]
    refine Finset.sum_congr rfl fun x _ => ?_
    rw [Finset.sum_div]
  let acc : Set (ℝ × ℝ) := {y | ¬ y.2 < y.1}
  refine ⟨fun q => if (q.2.2, Real.exp (-(H (T (q.1, (q.2.1, ()))) - H (q.1, (q.2.1, ()))))) ∈ acc then (T (q.1, (q.2.1, ()))).1 else q.1, ?_, ?_⟩
  · intro U P r
    unfold appTurn
    dsimp only
    rw [show (appStart act beta (asField U)).U = asField U from rfl, app_trajectory hN beta dt trajlen F force hforce]
    rw [Option.map_some]
    congr 1
    simp only [appStart, hact, Option.map_some, Option.bind_some, nanLt, hnorm, decide_eq_true_eq, ← hTdef]
    have e : ∀ a b : ℝ, Real.exp (a - b) = Real.exp (-(b - a)) := fun a b => by rw [neg_sub]
    rw [e]
    by_cases h : Real.exp (-(H (T (U, (P, ()))) - H (U, (P, ())))) < r
    · rw [if_pos h, if_neg (show ¬ _ ∈ acc from fun hc => hc h)]
    · rw [if_neg h, if_pos (show _ ∈ acc from h)]
  · obtain ⟨a, ha, hg⟩ := gaussian_weight 2 (by norm_num)
    have h1 := pi_weight (ι := Fin (N * N - 1)) volume (fun x : ℝ => x ^ 2 / (2 * 2)) (by fun_prop) (ProbabilityTheory.gaussianReal 0 2) a hg
    have h2 := pi_weight (ι := Fin n × PSite L) (Measure.pi fun _ : Fin (N * N - 1) => (volume : Measure ℝ)) (fun p => ∑ k, p k ^ 2 / (2 * 2)) (by fun_prop) _ _ h1
    have hw : Measurable fun U : Fin n × PSite L → SUN N => ENNReal.ofReal (Real.exp (-(beta * S U))) := by fun_prop
    have key := hmc_levels (Ω := Unit) haar (volume : Measure (Alg N)) (Measure.dirac ()) (expSU hN) (expSU_measurable hN) (expSU_neg hN) norm2
      (by fun_prop) (fun p => by simp [norm2]) _ _ h2 [appLevel N beta F] (S := fun U _ => beta * S U) (by fun_prop)
      (fun l hl => by
        rw [List.mem_singleton.1 hl]
        have h3 : ∀ i, Measurable fun z : (Fin n × PSite L → SUN N) × Unit => F z.1 i := fun i => (measurable_pi_apply i).comp (hF.comp measurable_fst)
        exact measurable_pi_lambda _ fun i => (h3 i).const_smul (beta / (N : ℝ)))
      (Measure.dirac ()) (draw := fun _ _ => ()) measurable_const hw
      (fun U => (ENNReal.ofReal_pos.2 (Real.exp_pos _)).ne') (fun U => ENNReal.ofReal_ne_top)
      (fun U => by
        rw [Measure.map_const, measure_univ, one_smul, withDensity_const, smul_smul,
          ENNReal.inv_mul_cancel (ENNReal.ofReal_pos.2 (Real.exp_pos _)).ne' ENNReal.ofReal_ne_top, one_smul])
      dt ((trajlen - 1).toNat + 1) (H := H) (fun _ => rfl) (acc := acc) (measurableSet_lt measurable_snd measurable_fst).compl
      (fun r => by
        filter_upwards [ae_restrict_of_ae (Measure.ae_ne volume r)] with s hs
        simp only [acc, Set.mem_ofPred_eq, not_lt]
        exact ⟨fun h => lt_of_le_of_ne h hs, le_of_lt⟩)
    convert keeps_unit key
    rfl

/-- C85 (Wilson's action). The turn of suN_hmc compiled with the plaquette action, without smearing. -/
theorem C85_wilson [∀ d, NeZero (L d)] (hN : 0 < N) (hn : 2 ≤ n) (haar : Measure (SUN N)) [IsFiniteMeasure haar] [haar.IsMulLeftInvariant] (beta dt : ℝ) (trajlen : ℤ) :
    ∃ upd : (Fin n × PSite L → SUN N) × ((Fin n × PSite L → Alg N) × ℝ) → (Fin n × PSite L → SUN N),
      (∀ U P r, appTurn (fun U => some (measureSWplaq U)) wilsonForce expAlg beta dt trajlen (asMomenta P) r
          (appStart (fun U => some (measureSWplaq U)) beta (asField U)) =
        some (appStart (fun U => some (measureSWplaq U)) beta (asField (upd (U, (P, r)))))) ∧
      KeepsDistribution ((Measure.pi fun _ => Measure.pi fun _ => ProbabilityTheory.gaussianReal 0 2).prod unif01)
        (boltzmann (Measure.pi fun _ => haar) fun U => beta * measureSWplaq (asField U)) upd := by
  have hc : ∀ d x, Continuous fun U : Fin n × PSite L → SUN N => asField U d x := fun d x =>
    continuous_subtype_val.comp (continuous_apply (d, x))
  refine C85_app hN haar beta dt trajlen (fun U => measureSWplaq (asField U)) ?_
    (fun U i => projectScaled (asField U i.1 i.2 * (stapleSpec (fun _ _ => 1) (asField U) i.1 i.2).conjTranspose) (-1)) ?_ _ (fun U => rfl) _ ?_
  · refine Continuous.measurable ?_
    unfold measureSWplaq
    refine continuous_finsetSum _ fun d1 _ => continuous_finsetSum _ fun d2 _ => ?_
    split_ifs
    · refine continuous_finsetSum _ fun x _ => ?_
      have := ((hc d1 x).matrix_mul (hc d2 (x + unitStep d1))).matrix_mul ((hc d2 x).matrix_mul (hc d1 (x + unitStep d2))).matrix_conjTranspose
      exact continuous_const.sub ((Complex.continuous_re.comp this.matrix_trace).div_const _)
    · exact continuous_const
  · refine measurable_pi_lambda _ fun i => Continuous.measurable ?_
    have h1 : Continuous fun U : Fin n × PSite L → SUN N => stapleSpec (fun _ _ => 1) (asField U) i.1 i.2 := by
      unfold stapleSpec
      refine continuous_finsetSum _ fun d2 _ => ?_
      simp only [Complex.ofReal_one, one_smul]
      exact (((hc _ _).matrix_mul (hc _ _)).matrix_mul (hc _ _).matrix_conjTranspose).add
        (((hc _ _).matrix_conjTranspose.matrix_mul (hc _ _)).matrix_mul (hc _ _))
    have h2 := (hc i.1 i.2).matrix_mul h1.matrix_conjTranspose
    have h3 : Continuous fun A : Mat N => projectScaled A (-1) := by
      have : (fun A : Mat N => projectScaled A (-1)) = fun A l => -1 * coef (genAt N l.val) A := funext fun A => projectScaled_eq hN A _
      rw [this]
      refine continuous_pi fun l => continuous_const.mul ?_
      unfold coef
      fun_prop
    exact h3.comp h2
  · intro U E eps
    unfold wilsonForce
    rw [allSome_some (F := asMomenta fun i => E i + eps • projectScaled (asField U i.1 i.2 * (stapleSpec (fun _ _ => 1) (asField U) i.1 i.2).conjTranspose) (-1))]
    intro d x
    unfold forceWplaqAdd
    rw [(C33_reversed_staples hn (asField U) (fun _ => none) d x).1, Option.map_some]
    congr 1
    simp only [asMomenta, projectScaled_eq hN]
    funext k
    simp only [Pi.sub_apply, Pi.add_apply, Pi.smul_apply, smul_eq_mul]
    ring

/-- C85 (negation). Once the measured action is not a number, the turn is accepted, and so is every later one: the comparison of
a value that is not a number is false, and false means accept. -/
theorem C85_nan_wrong [∀ d, NeZero (L d)] (act : GField L N → Option ℝ) (force : GField L N → AlgField L N → ℝ → Option (AlgField L N))
    (ex : Alg N → Mat N) (beta dt : ℝ) (trajlen : ℤ) (E : AlgField L N) (r : ℝ) (s : AppState L N) (t : RtState L N)
    (ht : appTrajectory force ex beta dt trajlen ⟨s.U, E⟩ = some t) (hnan : act t.U = none ∨ s.g = none) :
    ∃ g, appTurn act force ex beta dt trajlen E r s = some ⟨t.U, g⟩ ∧ (act t.U = none → g = none) := by
  refine ⟨(act t.U).map fun a => beta * a, ?_, fun h => by rw [h]; rfl⟩
  unfold appTurn
  dsimp only
  rw [ht, Option.map_some]
  rcases hnan with h | h
  · rw [h]
    cases s.g <;> rfl
  · rw [h]; rfl

end app

/-! ### Examples -/

section examples

/-- A function of a link of SU(2). -/
noncomputable def exTrace (U : Fin 3 → SUN 2) : ℝ := ∑ i, (U i).1.trace.re

theorem exTrace_measurable : Measurable exTrace := by
  refine Continuous.measurable (continuous_finsetSum _ fun i _ => ?_)
  exact Complex.continuous_re.comp (continuous_subtype_val.comp (continuous_apply i)).matrix_trace

/-- Two levels with a pseudofermion of one component: an action of the links and the action of the pseudofermion. The forces are arbitrary. -/
noncomputable def exLevels : List (HmcLevel (Fin 3) (SUN 2) (Alg 2) (Fin 1 → ℝ) (Fin 1 → ℝ)) :=
  [⟨true, 3, fun U φ => ∑ k, (Real.exp (-exTrace U) * φ k) ^ 2, fun U φ _ _ => exTrace U * φ 0, fun U _ η => Real.exp (exTrace U) • η⟩,
    ⟨false, 2, fun U _ => -exTrace U, fun U _ _ _ => exTrace U ^ 2, fun _ x _ => x⟩]

/-- C85: momenta with gaussian components of variance 2, the invariant measure of SU(2), a pseudofermion with a determinant that depends on
the links: all hypotheses hold. -/
example (steps : ℤ) (len : ℝ) (others : ℕ → ℝ) (s0 : GaugeState (Fin 3) (SUN 2) (Alg 2) (Fin 1 → ℝ)) :
    KeepsDistribution ((Measure.pi fun _ : Fin 1 => ProbabilityTheory.gaussianReal 0 (1 / 2)).prod
        ((Measure.pi fun _ : Fin 3 => Measure.pi fun _ : Fin (2 * 2 - 1) => ProbabilityTheory.gaussianReal 0 2).prod unif01))
      ((Measure.pi fun _ => Measure.haar).withDensity fun U => ENNReal.ofReal (|LinearMap.det (Real.exp (exTrace U) • (LinearMap.id : (Fin 1 → ℝ) →ₗ[ℝ] _))| *
        Real.exp (-(-exTrace U))))
      (fun q => (updateHMC Real.exp (hmcBuild (expSU (N := 2) (by norm_num)) (fun P => ∑ i, ∑ k, P i k ^ 2 / (2 * 2)) q.2.2.1 q.2.1 exLevels) steps len
        (fun k => if k = 0 then q.2.2.2 else others k) ⟨q.1, s0.momentum, s0.backup, s0.extra⟩).state.gauge) := by
  obtain ⟨a, ha, hg⟩ := gaussian_weight 2 (by norm_num)
  have h1 := pi_weight (ι := Fin (2 * 2 - 1)) volume (fun x : ℝ => x ^ 2 / (2 * 2)) (by fun_prop) (ProbabilityTheory.gaussianReal 0 2) a hg
  have h2 := pi_weight (ι := Fin 3) (Measure.pi fun _ : Fin (2 * 2 - 1) => (volume : Measure ℝ)) (fun p => ∑ k, p k ^ 2 / (2 * 2)) (by fun_prop) _ _ h1
  have ht := exTrace_measurable
  refine C85_pseudofermions Measure.haar (volume : Measure (Alg 2)) _ (expSU_measurable _) (expSU_neg _) _ (by fun_prop) (fun p => by simp) _ _ h2
    exLevels ?_ ?_ s0 (fun U => -exTrace U) (by fun_prop) _ (fun U => Real.exp (-exTrace U) • LinearMap.id) ?_ ?_ ?_ ?_ ?_ steps len others
  · intro l hl
    simp only [exLevels, List.mem_cons, List.not_mem_nil, or_false] at hl
    rcases hl with rfl | rfl
    · dsimp only
      fun_prop
    · dsimp only
      fun_prop
  · intro l hl
    simp only [exLevels, List.mem_cons, List.not_mem_nil, or_false] at hl
    rcases hl with rfl | rfl
    · dsimp only
      fun_prop
    · dsimp only
      fun_prop
  · intro U x
    simp only [LinearMap.smul_apply, LinearMap.id_apply, smul_smul, ← Real.exp_add, neg_add_cancel, Real.exp_zero, one_smul]
  · simp only [LinearMap.smul_apply, LinearMap.id_apply]
    fun_prop
  · simp only [LinearMap.det_smul, LinearMap.det_id]
    fun_prop
  · intro U φ
    simp only [exLevels, List.map_cons, List.map_nil, List.sum_cons, List.sum_nil, LinearMap.smul_apply, LinearMap.id_apply, Pi.smul_apply, smul_eq_mul]
    ring
  · intro U η
    rfl

/-- C85: a lattice with 4 sites in each of three directions, the invariant measure of SU(3), trajectories of 10 steps. -/
example : ∃ upd : (Fin 3 × PSite (fun _ : Fin 3 => 4) → SUN 3) × ((Fin 3 × PSite (fun _ : Fin 3 => 4) → Alg 3) × ℝ) →
      (Fin 3 × PSite (fun _ : Fin 3 => 4) → SUN 3),
    (∀ U P r, appTurn (fun U => some (measureSWplaq U)) wilsonForce expAlg 5.7 0.1 10 (asMomenta P) r
        (appStart (fun U => some (measureSWplaq U)) 5.7 (asField U)) =
      some (appStart (fun U => some (measureSWplaq U)) 5.7 (asField (upd (U, (P, r)))))) ∧
    KeepsDistribution ((Measure.pi fun _ => Measure.pi fun _ => ProbabilityTheory.gaussianReal 0 2).prod unif01)
      (boltzmann (Measure.pi fun _ => Measure.haar) fun U => 5.7 * measureSWplaq (asField U)) upd :=
  C85_wilson (by norm_num) (by norm_num) Measure.haar 5.7 0.1 10

/-- C85: an action that is not a number after a trajectory without force on a lattice with one site. -/
example (E : AlgField (fun _ : Fin 1 => 1) 2) (r : ℝ) :
    ∃ s, appTurn (fun _ => none) (fun _ E _ => some E) (fun _ => 1) 1 1 1 E r ⟨fun _ _ => 1, some 0⟩ = some s ∧ s.g = none := by
  have ht : appTrajectory (L := fun _ : Fin 1 => 1) (N := 2) (fun _ E _ => some E) (fun _ => 1) 1 1 1 ⟨fun _ _ => 1, E⟩ = some ⟨fun _ _ => 1, E⟩ := by
    simp only [appTrajectory, appSteps, appUpdateU, appUpdateE, Option.bind_some, Option.map_some, sub_self, Int.toNat_zero, one_mul]
    rw [allSome_some (F := fun _ _ => 1) fun d x => reunitarize_su (by norm_num) (one_mem _)]
    rfl
  obtain ⟨g, h1, h2⟩ := C85_nan_wrong (fun _ => none) (fun _ E _ => some E) (fun _ => 1) 1 1 1 E r ⟨fun _ _ => 1, some 0⟩ _ ht (Or.inl rfl)
  exact ⟨_, h1, h2 rfl⟩

end examples

end Hila
