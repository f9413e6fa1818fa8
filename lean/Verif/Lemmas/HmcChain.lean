import Verif.Props.HMC
import Verif.Model.HmcSample
import Verif.Lemmas.HmcSample

/-!
# A hierarchy of integrators as a map of links, momenta and pseudofermions
-/

namespace Hila

open MeasureTheory

section
variable {ι G A X Ω : Type} [Group G] [AddCommGroup A] [Module ℝ A]

/-- The fields without the backup. -/
def ofTriple (b : ι → G) (z : (ι → G) × ((ι → A) × X)) : GaugeState ι G A X := ⟨z.1, z.2.1, b, z.2.2⟩

/-- Links, momenta and pseudofermions. -/
def toTriple (s : GaugeState ι G A X) : (ι → G) × ((ι → A) × X) := (s.gauge, (s.momentum, s.extra))

/-- Steps of a hierarchy on links, momenta and pseudofermions. -/
noncomputable def levelStep (ex : A → G) : List (HmcLevel ι G A X Ω) → ℝ → (ι → G) × ((ι → A) × X) → (ι → G) × ((ι → A) × X)
  | [], eps => fun z => ((fun i => ex (eps • z.2.1 i)) * z.1, z.2)
  | l :: ls, eps =>
    let kick := fun (e : ℝ) (z : (ι → G) × ((ι → A) × X)) => (z.1, (z.2.1 + (fun i => e • l.F z.1 z.2.2 i), z.2.2))
    if l.second then
      (levelStep ex ls (eps * Integrator.o2zeta / (l.n : ℝ)))^[l.n.toNat] ∘ kick (1 / 2 * eps) ∘
        (levelStep ex ls ((eps - 2 * (eps * Integrator.o2zeta)) / (l.n : ℝ)))^[l.n.toNat] ∘ kick (1 / 2 * eps) ∘
        (levelStep ex ls (eps * Integrator.o2zeta / (l.n : ℝ)))^[l.n.toNat]
    else (levelStep ex ls (1 / 2 * eps / (l.n : ℝ)))^[l.n.toNat] ∘ kick eps ∘ (levelStep ex ls (1 / 2 * eps / (l.n : ℝ)))^[l.n.toNat]

theorem build_hierarchy (ex : A → G) (norm2 : (ι → A) → ℝ) (p : ι → A) (ω : Ω) (ls : List (HmcLevel ι G A X Ω)) :
    GaugeHierarchy ex (hmcBuild ex norm2 p ω ls) := by
  induction ls with
  | nil => exact .momentum _ _
  | cons l ls ih =>
    unfold hmcBuild
    split
    · exact .o2 _ _ _ _ _ ih
    · exact .leapfrog _ _ _ _ _ ih

theorem iterate_conj {α β : Type} (h : α → β) (f : α → α) (g : β → β) (hc : ∀ x, g (h x) = h (f x)) (n : ℕ) (x : α) :
    g^[n] (h x) = h (f^[n] x) := by
  induction n generalizing x with
  | zero => rfl
  | succ n ih => rw [Function.iterate_succ_apply, hc, ih, Function.iterate_succ_apply]

theorem build_step (ex : A → G) (norm2 : (ι → A) → ℝ) (p : ι → A) (ω : Ω) (ls : List (HmcLevel ι G A X Ω)) (eps : ℝ) (b : ι → G)
    (z : (ι → G) × ((ι → A) × X)) :
    (hmcBuild ex norm2 p ω ls).step eps (ofTriple b z) = ofTriple b (levelStep ex ls eps z) := by
  induction ls generalizing eps z with
  | nil => rfl
  | cons l ls ih =>
    have it : ∀ e n z, ((hmcBuild ex norm2 p ω ls).step e)^[n] (ofTriple b z) = ofTriple b ((levelStep ex ls e)^[n] z) := fun e n z =>
      iterate_conj (ofTriple b) _ _ (ih e) n z
    have hk : ∀ (e : ℝ) (z : (ι → G) × ((ι → A) × X)),
        (gaugeTerm l.S l.F fun s : GaugeState ι G A X => l.draw s.gauge s.extra ω).forceStep e (ofTriple b z) =
          ofTriple b (z.1, (z.2.1 + (fun i => e • l.F z.1 z.2.2 i), z.2.2)) := fun e z => rfl
    unfold hmcBuild levelStep
    by_cases h : l.second
    · simp only [if_pos h, Integrator.step, it, hk, Function.comp]
    · simp only [if_neg h, Integrator.step, it, hk, Function.comp]

/-- The sum of the actions of all levels. -/
def totalAction (ls : List (HmcLevel ι G A X Ω)) (U : ι → G) (φ : X) : ℝ := (ls.map fun l => l.S U φ).sum

/-- The fields of the action terms after all levels have drawn theirs, from the top. -/
def drawAll (ls : List (HmcLevel ι G A X Ω)) (U : ι → G) (x : X) (ω : Ω) : X := ls.foldl (fun x l => l.draw U x ω) x

theorem build_action (ex : A → G) (norm2 : (ι → A) → ℝ) (p : ι → A) (ω : Ω) (ls : List (HmcLevel ι G A X Ω)) (b : ι → G)
    (z : (ι → G) × ((ι → A) × X)) :
    (hmcBuild ex norm2 p ω ls).action (ofTriple b z) = totalAction ls z.1 z.2.2 + norm2 z.2.1 := by
  induction ls with
  | nil => simp [hmcBuild, Integrator.action, gaugeMomentum, ofTriple, totalAction]
  | cons l ls ih =>
    have : totalAction (l :: ls) z.1 z.2.2 = l.S z.1 z.2.2 + totalAction ls z.1 z.2.2 := by simp [totalAction]
    unfold hmcBuild
    split
    · show l.S z.1 z.2.2 + (hmcBuild ex norm2 p ω ls).action (ofTriple b z) = _
      rw [ih, this, add_assoc]
    · show l.S z.1 z.2.2 + (hmcBuild ex norm2 p ω ls).action (ofTriple b z) = _
      rw [ih, this, add_assoc]

theorem build_draw (ex : A → G) (norm2 : (ι → A) → ℝ) (p : ι → A) (ω : Ω) (ls : List (HmcLevel ι G A X Ω)) (s : GaugeState ι G A X) :
    (hmcBuild ex norm2 p ω ls).draw s = ⟨s.gauge, p, s.backup, drawAll ls s.gauge s.extra ω⟩ := by
  induction ls generalizing s with
  | nil => rfl
  | cons l ls ih =>
    unfold hmcBuild
    split
    · exact ih _
    · exact ih _

theorem levelStep_reverse (ex : A → G) (hex : ∀ x, ex (-x) * ex x = 1) (ls : List (HmcLevel ι G A X Ω)) (ω : Ω) (eps : ℝ) (k : ℕ)
    (z : (ι → G) × ((ι → A) × X)) :
    (levelStep ex ls eps)^[k] (((levelStep ex ls eps)^[k] z).1, (-((levelStep ex ls eps)^[k] z).2.1, ((levelStep ex ls eps)^[k] z).2.2)) =
      (z.1, (-z.2.1, z.2.2)) := by
  let I : Integrator ℝ (GaugeState ι G A X) := hmcBuild ex (fun _ => 0) (fun _ => 0) ω ls
  have h := C26_momentum_reversal ex hex I (build_hierarchy ex _ _ _ ls) eps k (ofTriple z.1 z)
  have e : ∀ z' : (ι → G) × ((ι → A) × X), (I.step eps)^[k] (ofTriple z.1 z') = ofTriple z.1 ((levelStep ex ls eps)^[k] z') := fun z' =>
    iterate_conj (ofTriple z.1) _ _ (build_step ex _ _ _ ls eps z.1) k z'
  rw [e] at h
  have hf : ∀ z' : (ι → G) × ((ι → A) × X), flipMomenta (ofTriple z.1 z') = ofTriple z.1 (z'.1, (-z'.2.1, z'.2.2)) := fun z' => rfl
  rw [hf, e, hf] at h
  exact congrArg toTriple h

end

/-- Every step keeps the product of the measures of links, momenta and pseudofermions. -/
theorem levelStep_preserving {ι G A X Ω : Type} [Fintype ι] [Group G] [MeasurableSpace G] [MeasurableMul₂ G] [AddCommGroup A] [Module ℝ A] [MeasurableSpace A]
    [MeasurableAdd₂ A] [MeasurableConstSMul ℝ A] [MeasurableSpace X]
    (haar : Measure G) [SigmaFinite haar] [haar.IsMulLeftInvariant] (v : Measure A) [SigmaFinite v] [v.IsAddLeftInvariant]
    (lam : Measure X) [SFinite lam] (ex : A → G) (hexm : Measurable ex) (ls : List (HmcLevel ι G A X Ω))
    (hF : ∀ l ∈ ls, Measurable fun z : (ι → G) × X => l.F z.1 z.2) (eps : ℝ) :
    MeasurePreserving (levelStep ex ls eps) ((Measure.pi fun _ : ι => haar).prod ((Measure.pi fun _ : ι => v).prod lam))
      ((Measure.pi fun _ : ι => haar).prod ((Measure.pi fun _ : ι => v).prod lam)) := by
  induction ls generalizing eps with
  | nil =>
    have hg : Measurable fun y : (ι → A) × X => fun i => ex (eps • y.1 i) := by
      refine measurable_pi_lambda _ fun i => hexm.comp ?_
      exact (Measurable.const_smul ((measurable_pi_apply i).comp measurable_fst) eps)
    exact mp_drift (Measure.pi fun _ : ι => haar) (Measure.pi fun _ : ι => v) lam hg
  | cons l ls ih =>
    have ih' : ∀ e n, MeasurePreserving ((levelStep ex ls e)^[n]) _ _ := fun e n =>
      (ih (fun k hk => hF k (List.mem_cons_of_mem _ hk)) e).iterate n
    have hk : ∀ e : ℝ, MeasurePreserving (fun z : (ι → G) × ((ι → A) × X) => (z.1, (z.2.1 + (fun i => e • l.F z.1 z.2.2 i), z.2.2)))
        ((Measure.pi fun _ : ι => haar).prod ((Measure.pi fun _ : ι => v).prod lam))
        ((Measure.pi fun _ : ι => haar).prod ((Measure.pi fun _ : ι => v).prod lam)) := fun e => by
      have hm : Measurable fun z : (ι → G) × X => fun i => e • l.F z.1 z.2 i :=
        measurable_pi_lambda _ fun i => Measurable.const_smul ((measurable_pi_apply i).comp (hF l List.mem_cons_self)) e
      exact mp_kick (F := fun U φ => fun i => e • l.F U φ i) (Measure.pi fun _ : ι => haar) (Measure.pi fun _ : ι => v) lam hm
    unfold levelStep
    dsimp only
    split
    · exact (ih' _ _).comp ((hk _).comp ((ih' _ _).comp ((hk _).comp (ih' _ _))))
    · exact (ih' _ _).comp ((hk _).comp (ih' _ _))

end Hila
