import Verif.Lemmas.BoxMuller
import Mathlib.Probability.Independence.InfinitePi

/-!
# A sequence of uniform numbers to a sequence of normal numbers
-/

namespace Hila

open MeasureTheory ProbabilityTheory

/-- Consecutive numbers in pairs. -/
def pairUp (u : ℕ → ℝ) (k : ℕ) : ℝ × ℝ := (u (2 * k), u (2 * k + 1))

/-- Pairs to a sequence. -/
def unpair (w : ℕ → ℝ × ℝ) (k : ℕ) : ℝ := if k % 2 = 0 then (w (k / 2)).1 else (w (k / 2)).2

theorem pairUp_measurable : Measurable pairUp := by
  refine measurable_pi_lambda _ fun k => ?_
  unfold pairUp; fun_prop

theorem unpair_measurable : Measurable unpair := by
  refine measurable_pi_lambda _ fun k => ?_
  unfold unpair
  split
  · exact measurable_fst.comp (measurable_pi_apply _)
  · exact measurable_snd.comp (measurable_pi_apply _)

theorem unpair_pairUp (u : ℕ → ℝ) : unpair (pairUp u) = u := by
  funext k
  unfold unpair pairUp
  split
  · show u (2 * (k / 2)) = u k
    congr 1; omega
  · show u (2 * (k / 2) + 1) = u k
    congr 1; omega

theorem pairUp_law (μ : Measure ℝ) [IsProbabilityMeasure μ] :
    (Measure.infinitePi fun _ : ℕ => μ).map pairUp = Measure.infinitePi fun _ : ℕ => μ.prod μ := by
  have hinj : Function.Injective (fun p : ℕ × Bool => 2 * p.1 + (if p.2 then 1 else 0)) := by
    rintro ⟨a, b⟩ ⟨c, d⟩ h
    cases b <;> cases d <;> simp at h <;> simp <;> omega
  have h1 := Measure.map_infinitePi_infinitePi_of_inj (P := fun _ : ℕ => μ) hinj
  have h2 := Measure.infinitePi_map_curry (ι := ℕ) (κ := Bool) (fun _ _ => μ)
  have h3 : (Measure.infinitePi fun _ : Bool => μ).map (fun w => (w false, w true)) = μ.prod μ :=
    Measure.infinitePi_map_eval_prod (P := fun _ : Bool => μ) (by decide)
  have h4 := Measure.infinitePi_map_pi (μ := fun _ : ℕ => Measure.infinitePi fun _ : Bool => μ)
    (f := fun _ w => (w false, w true)) (fun _ => by fun_prop)
  simp only [h3] at h4
  rw [← h4, ← h2, ← h1, Measure.map_map (by fun_prop) (by fun_prop), Measure.map_map (by fun_prop) (by fun_prop)]
  rfl

/-- The sequence of normal numbers made from a sequence of uniform numbers. -/
noncomputable def normals (u : ℕ → ℝ) : ℕ → ℝ := unpair fun k => bmPair (pairUp u k)

theorem normals_law : (Measure.infinitePi fun _ : ℕ => unif01).map normals = Measure.infinitePi fun _ : ℕ => gaussianReal 0 1 := by
  have h1 := pairUp_law unif01
  have h2 := Measure.infinitePi_map_pi (μ := fun _ : ℕ => unif01.prod unif01) (f := fun _ => bmPair) (fun _ => bmPair_measurable)
  simp only [bmPair_law] at h2
  have h3 := pairUp_law (gaussianReal 0 1)
  have hm : Measurable fun w : ℕ → ℝ × ℝ => fun k => bmPair (w k) :=
    measurable_pi_lambda _ fun k => bmPair_measurable.comp (measurable_pi_apply k)
  have e : normals = unpair ∘ (fun w : ℕ → ℝ × ℝ => fun k => bmPair (w k)) ∘ pairUp := rfl
  rw [e, ← Measure.map_map unpair_measurable (hm.comp pairUp_measurable), ← Measure.map_map hm pairUp_measurable, h1, h2, ← h3,
    Measure.map_map unpair_measurable pairUp_measurable]
  have : unpair ∘ pairUp = id := funext unpair_pairUp
  rw [this, Measure.map_id]

theorem normals_measurable : Measurable normals :=
  unpair_measurable.comp (measurable_pi_lambda _ fun k => bmPair_measurable.comp ((measurable_pi_apply k).comp pairUp_measurable))

theorem normals_even (u : ℕ → ℝ) {k : ℕ} (h : k % 2 = 0) : normals u k = (bmPair (u k, u (k + 1))).1 := by
  unfold normals unpair pairUp
  rw [if_pos h]
  show (bmPair (u (2 * (k / 2)), u (2 * (k / 2) + 1))).1 = _
  rw [show 2 * (k / 2) = k by omega]

theorem normals_odd (u : ℕ → ℝ) {k : ℕ} (h : k % 2 = 0) : normals u (k + 1) = (bmPair (u k, u (k + 1))).2 := by
  unfold normals unpair pairUp
  rw [if_neg (by omega)]
  show (bmPair (u (2 * ((k + 1) / 2)), u (2 * ((k + 1) / 2) + 1))).2 = _
  rw [show 2 * ((k + 1) / 2) = k by omega]

/-- Almost surely all numbers of the stream are in `[0, 1)`. -/
theorem stream_range : ∀ᵐ u ∂(Measure.infinitePi fun _ : ℕ => unif01), ∀ i, 0 ≤ u i ∧ u i < 1 := by
  rw [ae_all_iff]
  intro i
  have h := measurePreserving_eval_infinitePi (fun _ : ℕ => unif01) i
  have h0 : ∀ᵐ x ∂unif01, 0 ≤ x ∧ x < 1 := by
    unfold unif01
    filter_upwards [ae_restrict_mem measurableSet_Ico] with x hx using hx
  exact h.quasiMeasurePreserving.ae h0

/-- Selected normal numbers, each times a factor. -/
theorem normals_select {n : ℕ} (idx : Fin n → ℕ) (hinj : Function.Injective idx) (w : Fin n → ℝ) :
    (Measure.infinitePi fun _ : ℕ => unif01).map (fun u i => normals u (idx i) * w i)
      = Measure.pi fun i => gaussianReal 0 (w i ^ 2).toNNReal := by
  have h1 := Measure.map_infinitePi_infinitePi_of_inj (P := fun _ : ℕ => gaussianReal 0 1) hinj
  have h2 := Measure.infinitePi_map_pi (μ := fun _ : Fin n => gaussianReal 0 1) (f := fun i x => x * w i) (fun _ => by fun_prop)
  have h3 : ∀ i, (gaussianReal 0 1).map (fun x => x * w i) = gaussianReal 0 (w i ^ 2).toNNReal := by
    intro i
    have := gaussianReal_map_mul_const (μ := 0) (v := 1) (w i)
    rw [Real.toNNReal_of_nonneg (sq_nonneg _)]
    simpa using this
  simp only [h3, Measure.infinitePi_eq_pi] at h2
  have hm1 : Measurable fun v : ℕ → ℝ => fun i : Fin n => v (idx i) := by fun_prop
  have hm2 : Measurable fun v : Fin n → ℝ => fun i : Fin n => v i * w i := by fun_prop
  have e : (fun u : ℕ → ℝ => fun i : Fin n => normals u (idx i) * w i)
      = (fun v : Fin n → ℝ => fun i => v i * w i) ∘ (fun v : ℕ → ℝ => fun i => v (idx i)) ∘ normals := rfl
  rw [e, ← Measure.map_map hm2 (hm1.comp normals_measurable), ← Measure.map_map hm1 normals_measurable, normals_law, h1,
    Measure.infinitePi_eq_pi, h2]

end Hila
