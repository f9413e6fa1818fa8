import Verif.Model.U1
import Mathlib.Analysis.SpecialFunctions.Complex.Arg
import Mathlib.Analysis.SpecialFunctions.Complex.Circle
import Mathlib.MeasureTheory.Integral.IntervalIntegral.Periodic
import Mathlib.MeasureTheory.Integral.IntervalIntegral.Basic

/-!
# C111: the class U1

Property theorems about `Model/U1`.
-/

namespace Hila

theorem u1Complex_exp (a : U1Elem) : u1Complex a = Complex.exp (a.phase * Complex.I) := by
  rw [Complex.exp_mul_I, ← Complex.ofReal_cos, ← Complex.ofReal_sin]
  exact Complex.mk_eq_add_mul_I _ _

/-- **C111, the group.** `complex()` takes values of modulus 1; `*=` is the product of complex numbers, `conj` and `dagger` give the
complex conjugate, which is the inverse, unary minus the negative, `real` and `imag` the parts, and the product with a complex number is that of complex numbers. -/
theorem C111_group (a b : U1Elem) (z : ℂ) : ‖u1Complex a‖ = 1 ∧ (∃ c, u1Assign "*=" a b = some c ∧ u1Complex c = u1Complex a * u1Complex b) ∧
    u1Complex (u1Conj a) = (starRingEnd ℂ) (u1Complex a) ∧ u1Complex (u1Conj a) * u1Complex a = 1 ∧ u1Complex (u1Neg a) = -u1Complex a ∧
    u1Re a = (u1Complex a).re ∧ u1Im a = (u1Complex a).im ∧ u1MulComplex a z = u1Complex a * z := by
  refine ⟨?_, ⟨⟨a.phase + b.phase⟩, ?_, ?_⟩, ?_, ?_, ?_, rfl, rfl, rfl⟩
  · rw [u1Complex_exp, Complex.norm_exp_ofReal_mul_I]
  · unfold u1Assign
    rw [if_pos rfl]
  · rw [u1Complex_exp, u1Complex_exp, u1Complex_exp, ← Complex.exp_add]
    push_cast
    ring_nf
  · unfold u1Conj u1Complex
    apply Complex.ext <;> simp
  · rw [u1Complex_exp, u1Complex_exp, ← Complex.exp_add]
    unfold u1Conj
    push_cast
    rw [neg_mul, neg_add_cancel, Complex.exp_zero]
  · unfold u1Neg u1Complex
    apply Complex.ext <;> simp [Real.cos_add_pi, Real.sin_add_pi]

/-- **C111, phases of complex numbers.** `set_phase(z)` gives `z / |z|`, so every element of the group can be set, `set_phase(x)` gives `exp(i x)`; and
two phases give the same element just if they differ by a multiple of 2π. -/
theorem C111_phase (z : ℂ) (hz : z ≠ 0) (a b : U1Elem) (x : ℝ) : u1Complex (u1SetComplex z) = z / ‖z‖ ∧
    u1Complex (u1SetPhase x) = Complex.exp (x * Complex.I) ∧ (u1Complex a = u1Complex b ↔ ∃ k : ℤ, a.phase = b.phase + k * (2 * Real.pi)) := by
  constructor
  · rw [u1Complex_exp]
    have h := Complex.norm_mul_exp_arg_mul_I z
    have hn : (‖z‖ : ℂ) ≠ 0 := by exact_mod_cast norm_ne_zero_iff.2 hz
    rw [eq_div_iff hn, mul_comm]
    exact h
  constructor
  · exact u1Complex_exp _
  · rw [u1Complex_exp, u1Complex_exp, Complex.exp_eq_exp_iff_exists_int]
    constructor
    · rintro ⟨k, hk⟩
      refine ⟨k, ?_⟩
      have := congrArg Complex.im hk
      simpa using this
    · rintro ⟨k, hk⟩
      refine ⟨k, ?_⟩
      rw [hk]
      push_cast
      ring

example : (⟨3, 4⟩ : ℂ) ≠ 0 := fun h => by simpa using congrArg Complex.re h

/-- **C111, random elements.** Every element of the group comes from exactly one random number in [0,1), and the distribution
is invariant: the mean of any function is the same for the random element and for its product with any fixed element. -/
theorem C111_random (z : ℂ) (hz : ‖z‖ = 1) (f : ℂ → ℝ) : (∃! u : ℝ, (0 ≤ u ∧ u < 1) ∧ u1Complex (u1Random u) = z) ∧
    ∫ u in (0 : ℝ)..1, f (z * u1Complex (u1Random u)) = ∫ u in (0 : ℝ)..1, f (u1Complex (u1Random u)) := by
  have hpi := Real.pi_pos
  have hz0 : z ≠ 0 := by
    rintro rfl
    simp at hz
  have harg : u1Complex (u1SetComplex z) = z := by
    rw [(C111_phase z hz0 u1Zero u1Zero 0).1, hz]
    simp
  have hper : Function.Periodic (fun u : ℝ => f (u1Complex (u1Random u))) 1 := by
    intro u
    have : u1Complex (u1Random (u + 1)) = u1Complex (u1Random u) := by
      rw [(C111_phase z hz0 _ _ 0).2.2]
      exact ⟨1, by unfold u1Random; push_cast; ring⟩
    simp only [this]
  have hshift : ∀ u : ℝ, z * u1Complex (u1Random u) = u1Complex (u1Random (u + z.arg / (2 * Real.pi))) := by
    intro u
    conv_lhs => rw [← harg]
    rw [u1Complex_exp, u1Complex_exp, u1Complex_exp, ← Complex.exp_add]
    congr 1
    rw [← add_mul]
    congr 1
    rw [← Complex.ofReal_add]
    congr 1
    unfold u1SetComplex u1Random
    dsimp only
    field_simp
    ring
  constructor
  · have hfl := Int.fract_nonneg (z.arg / (2 * Real.pi) + 1 / 2)
    have hfl1 := Int.fract_lt_one (z.arg / (2 * Real.pi) + 1 / 2)
    refine ⟨Int.fract (z.arg / (2 * Real.pi) + 1 / 2), ⟨⟨hfl, hfl1⟩, ?_⟩, ?_⟩
    · conv_rhs => rw [← harg]
      rw [(C111_phase z hz0 _ _ 0).2.2]
      refine ⟨-⌊z.arg / (2 * Real.pi) + 1 / 2⌋, ?_⟩
      unfold u1SetComplex u1Random
      dsimp only
      rw [Int.fract]
      push_cast
      field_simp
      ring
    · rintro u ⟨⟨h0, h1⟩, hu⟩
      rw [← harg] at hu
      obtain ⟨k, hk⟩ := (C111_phase z hz0 _ _ 0).2.2.1 hu
      unfold u1SetComplex u1Random at hk
      dsimp only at hk
      have e : z.arg / (2 * Real.pi) + 1 / 2 = u + (-k : ℤ) := by
        push_cast
        field_simp
        linarith
      rw [e, Int.fract_add_intCast, Int.fract_eq_self.2 ⟨h0, h1⟩]
  · simp only [hshift]
    rw [intervalIntegral.integral_comp_add_right (fun u => f (u1Complex (u1Random u)))]
    have := hper.intervalIntegral_add_eq (z.arg / (2 * Real.pi)) 0
    rw [zero_add] at this ⊢
    rw [add_comm 1]
    exact this

example : ‖Complex.I‖ = 1 := Complex.norm_I

/-- **C111 fails for products.** `a * b` uses an assignment that does not exist: a program with the product of two elements cannot be compiled. -/
theorem C111_product_wrong (a b : U1Elem) : u1Product a b = none ∧ u1Assign "*=" a b ≠ none := by
  unfold u1Product u1Assign
  constructor
  · exact if_neg (by decide)
  · rw [if_pos rfl]
    exact Option.some_ne_none _

/-- **C111 fails for zero.** Assigning 0, which for the matrices and complex numbers of the same templates gives zero, gives the unit element. -/
theorem C111_zero_wrong : u1Complex u1Zero = 1 ∧ ∀ a : U1Elem, u1Complex a ≠ 0 := by
  constructor
  · unfold u1Zero u1Complex
    apply Complex.ext <;> simp
  · intro a h
    have := (C111_group a a 0).1
    rw [h] at this
    simp at this

end Hila
