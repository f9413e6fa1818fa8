import Verif.Lemmas.GradFlow
import Mathlib.MeasureTheory.Group.Measure
import Mathlib.MeasureTheory.Measure.Haar.Basic
import Mathlib.Topology.Algebra.Star.Unitary

/-!
# SU(N) as a group with an invariant measure
-/

namespace Hila

open MeasureTheory Matrix

/-- The group SU(N). -/
abbrev SUN (N : ℕ) := Matrix.specialUnitaryGroup (Fin N) ℂ

variable {N : ℕ}

instance : ContinuousInv (SUN N) where
  continuous_inv := by
    refine Continuous.subtype_mk (f := fun A : SUN N => star A.1) ?_ _
    exact continuous_subtype_val.star

instance : IsTopologicalGroup (SUN N) where

noncomputable instance : MeasurableSpace (SUN N) := borel _

instance : BorelSpace (SUN N) := ⟨rfl⟩

instance : SecondCountableTopology (SUN N) := by
  have : SecondCountableTopology (Matrix (Fin N) (Fin N) ℂ) := inferInstanceAs (SecondCountableTopology (Fin N → Fin N → ℂ))
  exact TopologicalSpace.Subtype.secondCountableTopology _

instance : CompactSpace (SUN N) := by
  refine isCompact_iff_compactSpace (s := ((Matrix.specialUnitaryGroup (Fin N) ℂ : Submonoid _) : Set (Matrix (Fin N) (Fin N) ℂ))).1 ?_
  have hb : IsCompact (Set.univ.pi fun _ : Fin N => Set.univ.pi fun _ : Fin N => Metric.closedBall (0 : ℂ) 1) :=
    isCompact_univ_pi fun _ => isCompact_univ_pi fun _ => isCompact_closedBall 0 1
  refine hb.of_isClosed_subset ?_ ?_
  · have : ((Matrix.specialUnitaryGroup (Fin N) ℂ : Submonoid _) : Set (Matrix (Fin N) (Fin N) ℂ)) =
        {A | A * star A = 1} ∩ {A | A.det = 1} := by
      ext A
      rw [SetLike.mem_coe, Matrix.mem_specialUnitaryGroup_iff, Matrix.mem_unitaryGroup_iff]; rfl
    rw [this]
    have hd : Continuous fun A : Matrix (Fin N) (Fin N) ℂ => A.det := continuous_id.matrix_det
    have hs : Continuous fun A : Matrix (Fin N) (Fin N) ℂ => A * star A := by
      exact continuous_id.mul continuous_id.star
    exact (isClosed_singleton.preimage hs).inter (isClosed_singleton.preimage hd)
  · intro A hA i _ j _
    rw [mem_closedBall_zero_iff]
    have h := Matrix.mem_unitaryGroup_iff.1 (Matrix.mem_specialUnitaryGroup_iff.1 hA).1
    exact entry_norm_bound_of_unitary (Matrix.mem_specialUnitaryGroup_iff.1 hA).1 i j

end Hila
