import Verif.Model.Cmplx
import Mathlib.Analysis.SpecialFunctions.Complex.Arctan
import Mathlib.Analysis.SpecialFunctions.Complex.Arg
import Mathlib.Analysis.SpecialFunctions.Pow.Complex
import Mathlib.Analysis.SpecialFunctions.Arsinh

namespace Hila
namespace Cx

/-- The complex number of mathematics with the two parts. -/
def toC (z : Cx) : ℂ := ⟨z.re, z.im⟩

@[simp] theorem toC_re (z : Cx) : z.toC.re = z.re := rfl
@[simp] theorem toC_im (z : Cx) : z.toC.im = z.im := rfl

theorem toC_inj {a b : Cx} (h : a.toC = b.toC) : a = b := by
  have h1 := congrArg Complex.re h
  have h2 := congrArg Complex.im h
  ext <;> assumption

theorem squarenorm_eq (z : Cx) : z.squarenorm = Complex.normSq z.toC := by
  simp [squarenorm, Complex.normSq_apply]

theorem toC_add (a b : Cx) : (a.add b).toC = a.toC + b.toC := by apply Complex.ext <;> simp [add]
theorem toC_sub (a b : Cx) : (a.sub b).toC = a.toC - b.toC := by apply Complex.ext <;> simp [sub]
theorem toC_neg (a : Cx) : a.neg.toC = -a.toC := by apply Complex.ext <;> simp [neg]
theorem toC_mul (a b : Cx) : (a.mul b).toC = a.toC * b.toC := by apply Complex.ext <;> simp [mul]
theorem toC_addS (c : Cx) (a : ℝ) : (c.addS a).toC = c.toC + a := by apply Complex.ext <;> simp [addS]
theorem toC_subS (c : Cx) (a : ℝ) : (c.subS a).toC = c.toC - a := by apply Complex.ext <;> simp [subS]
theorem toC_sSub (c : Cx) (a : ℝ) : (sSub a c).toC = a - c.toC := by apply Complex.ext <;> simp [sSub]
theorem toC_mulS (c : Cx) (a : ℝ) : (c.mulS a).toC = c.toC * a := by apply Complex.ext <;> simp [mulS]
theorem toC_iMul (v : ℝ) (c : Cx) : (iMul (imag v) c).toC = (v * Complex.I) * c.toC := by
  apply Complex.ext <;> simp [iMul, imagMul, imag] <;> ring
theorem toC_I : I.toC = Complex.I := by apply Complex.ext <;> simp [I, imag]

theorem rdiv_map {β : Type} (a b : ℝ) (f : ℝ → β) : (rdiv a b).map f = if b = 0 then none else some (f (a / b)) := by
  unfold rdiv; split <;> rfl

theorem toC_div (a b : Cx) : (a.div b).map toC = if b.toC = 0 then none else some (a.toC / b.toC) := by
  have h : b.squarenorm = 0 ↔ b.toC = 0 := by rw [squarenorm_eq]; exact Complex.normSq_eq_zero
  unfold div
  rw [Option.map_map, rdiv_map]
  by_cases h0 : b.toC = 0
  · rw [if_pos (h.2 h0), if_pos h0]
  · rw [if_neg (fun e => h0 (h.1 e)), if_neg h0]
    congr 1
    have hn : b.re * b.re + b.im * b.im ≠ 0 := fun e => h0 (h.1 e)
    apply Complex.ext
    · simp [Complex.div_re, squarenorm, Complex.normSq_apply]; norm_num; field_simp
    · simp [Complex.div_im, squarenorm, Complex.normSq_apply]; norm_num; field_simp

theorem arg_eq (z : Cx) : z.arg = Complex.arg z.toC := by
  have ht := Complex.tan_arg z.toC
  simp only [toC_re, toC_im] at ht
  have hpi := Real.pi_pos
  unfold arg atan2
  by_cases h1 : 0 < z.re
  · rw [if_pos h1, ← ht]
    have h := (Complex.abs_arg_lt_pi_div_two_iff (z := z.toC)).2 (Or.inl h1)
    rw [abs_lt] at h
    exact Real.arctan_tan h.1 h.2
  rw [if_neg h1]
  by_cases h2 : z.re < 0
  · rw [if_pos h2]
    have hb : ¬ |Complex.arg z.toC| ≤ Real.pi / 2 := by
      rw [Complex.abs_arg_le_pi_div_two_iff]; exact not_le.2 h2
    have hle := Complex.arg_le_pi z.toC
    have hgt := Complex.neg_pi_lt_arg z.toC
    by_cases h3 : 0 ≤ z.im
    · rw [if_pos h3]
      have h4 : 0 ≤ Complex.arg z.toC := Complex.arg_nonneg_iff.2 h3
      rw [abs_of_nonneg h4, not_le] at hb
      have e : Real.tan (Complex.arg z.toC - Real.pi) = z.im / z.re := by rw [Real.tan_sub_pi, ht]
      rw [← e, Real.arctan_tan (by linarith) (by linarith)]; ring
    · rw [if_neg h3]
      have h4 : Complex.arg z.toC < 0 := Complex.arg_neg_iff.2 (not_le.1 h3)
      rw [abs_of_neg h4, not_le] at hb
      have e : Real.tan (Complex.arg z.toC + Real.pi) = z.im / z.re := by rw [Real.tan_add_pi, ht]
      rw [← e, Real.arctan_tan (by linarith) (by linarith)]; ring
  rw [if_neg h2]
  have h0 : z.re = 0 := le_antisymm (not_lt.1 h1) (not_lt.1 h2)
  have ez : z.toC = (z.im : ℂ) * Complex.I := by apply Complex.ext <;> simp [h0]
  rw [ez]
  by_cases h3 : 0 < z.im
  · rw [if_pos h3, Complex.arg_real_mul _ h3, Complex.arg_I]
  rw [if_neg h3]
  by_cases h4 : z.im < 0
  · rw [if_pos h4]
    have e : (z.im : ℂ) * Complex.I = ((-z.im : ℝ) : ℂ) * (-Complex.I) := by push_cast; ring
    rw [e, Complex.arg_real_mul _ (by linarith), Complex.arg_neg_I]
  · rw [if_neg h4, le_antisymm (not_lt.1 h3) (not_lt.1 h4)]; simp

theorem toC_log (z : Cx) : (log z).map toC = if z.toC = 0 then none else some (Complex.log z.toC) := by
  have hs := squarenorm_eq z
  unfold log rlog
  by_cases h0 : z.toC = 0
  · rw [if_pos h0, hs, h0]; simp
  · have hp : 0 < z.squarenorm := by rw [hs]; exact Complex.normSq_pos.2 h0
    rw [if_neg h0, if_pos hp]
    simp only [Option.map_some]
    congr 1
    apply Complex.ext
    · rw [toC_re, Complex.log_re, hs, Complex.normSq_eq_norm_sq, Real.log_pow]; norm_num; ring
    · rw [toC_im, Complex.log_im]; exact arg_eq z

theorem toC_expi (a : ℝ) : (expi a).toC = Complex.exp (a * Complex.I) := by
  apply Complex.ext
  · rw [Complex.exp_ofReal_mul_I_re]; rfl
  · rw [Complex.exp_ofReal_mul_I_im]; rfl

theorem toC_exp (z : Cx) : (exp z).toC = Complex.exp z.toC := by
  apply Complex.ext
  · rw [Complex.exp_re]; simp [exp, mulS]; ring
  · rw [Complex.exp_im]; simp [exp, mulS]; ring

/-- The square root and the cubic root: a power of the modulus and a part of the angle. -/
theorem toC_root (z : Cx) (p q : ℝ) (hq : q = p / 2) (hp : p ≠ 0) :
    ((expi (p * z.arg)).mulS (z.squarenorm ^ q)).toC = z.toC ^ (p : ℂ) := by
  rw [toC_mulS, toC_expi, arg_eq, squarenorm_eq]
  by_cases h0 : z.toC = 0
  · rw [h0, Complex.zero_cpow (by exact_mod_cast hp)]
    simp only [map_zero]
    rw [Real.zero_rpow (by rw [hq]; exact div_ne_zero hp two_ne_zero)]; simp
  · rw [Complex.cpow_def_of_ne_zero h0, Complex.log, add_mul, Complex.exp_add, mul_comm]
    congr 1
    · rw [Complex.normSq_eq_norm_sq, Real.rpow_def_of_pos (by have := norm_pos_iff.2 h0; positivity), Real.log_pow, hq]
      rw [Complex.ofReal_exp]; congr 1; push_cast; ring
    · congr 1; push_cast; ring

theorem toC_sqrt (z : Cx) : (sqrt z).toC = z.toC ^ ((1 / 2 : ℝ) : ℂ) := by
  have := toC_root z (1 / 2) (0.25) (by norm_num) (by norm_num)
  rw [← this]; unfold sqrt; norm_num

theorem toC_cbrt (z : Cx) : (cbrt z).toC = z.toC ^ ((1 / 3 : ℝ) : ℂ) := by
  have := toC_root z (1 / 3) (1.0 / 6.0) (by norm_num) (by norm_num)
  rw [← this]; unfold cbrt; norm_num

theorem sqrt_sq (z : Cx) : (sqrt z).toC ^ 2 = z.toC := by
  rw [toC_sqrt]
  have := Complex.cpow_nat_inv_pow z.toC (n := 2) (by norm_num)
  rw [← this]; congr 2; push_cast; norm_num

theorem cbrt_cube (z : Cx) : (cbrt z).toC ^ 3 = z.toC := by
  rw [toC_cbrt]
  have := Complex.cpow_nat_inv_pow z.toC (n := 3) (by norm_num)
  rw [← this]; congr 2; push_cast; norm_num

theorem sqrt_re (z : Cx) : 0 ≤ (sqrt z).toC.re := by
  have h : (sqrt z).toC.re = Real.cos (0.5 * z.arg) * z.squarenorm ^ (0.25 : ℝ) := rfl
  rw [h]
  have h1 := Complex.neg_pi_lt_arg z.toC
  have h2 := Complex.arg_le_pi z.toC
  rw [← arg_eq] at h1 h2
  refine mul_nonneg (Real.cos_nonneg_of_mem_Icc ⟨?_, ?_⟩) (Real.rpow_nonneg ?_ _)
  · norm_num; linarith
  · norm_num; linarith
  · rw [squarenorm_eq]; exact Complex.normSq_nonneg _

theorem toC_sin (z : Cx) : (sin z).toC = Complex.sin z.toC := by
  rw [Complex.sin_eq]
  simp only [toC_re, toC_im, ← Complex.ofReal_sin, ← Complex.ofReal_cos, ← Complex.ofReal_sinh, ← Complex.ofReal_cosh, ← mul_assoc,
    ← Complex.ofReal_mul]
  apply Complex.ext <;> simp only [sin, toC_re, toC_im, Complex.add_re, Complex.add_im, Complex.sub_re, Complex.sub_im, Complex.ofReal_re,
    Complex.ofReal_im, Complex.re_ofReal_mul, Complex.im_ofReal_mul, Complex.I_re, Complex.I_im] <;> ring

theorem toC_cos (z : Cx) : (cos z).toC = Complex.cos z.toC := by
  rw [Complex.cos_eq]
  simp only [toC_re, toC_im, ← Complex.ofReal_sin, ← Complex.ofReal_cos, ← Complex.ofReal_sinh, ← Complex.ofReal_cosh, ← mul_assoc,
    ← Complex.ofReal_mul]
  apply Complex.ext <;> simp only [cos, toC_re, toC_im, Complex.add_re, Complex.add_im, Complex.sub_re, Complex.sub_im, Complex.ofReal_re,
    Complex.ofReal_im, Complex.re_ofReal_mul, Complex.im_ofReal_mul, Complex.I_re, Complex.I_im] <;> ring

theorem eq_parts (z : Cx) : z.toC = z.re + z.im * Complex.I := (Complex.re_add_im z.toC).symm

theorem toC_sinh (z : Cx) : (sinh z).toC = Complex.sinh z.toC := by
  rw [eq_parts z, Complex.sinh_add, Complex.cosh_mul_I, Complex.sinh_mul_I]
  simp only [toC_re, toC_im, ← Complex.ofReal_sin, ← Complex.ofReal_cos, ← Complex.ofReal_sinh, ← Complex.ofReal_cosh, ← mul_assoc,
    ← Complex.ofReal_mul]
  apply Complex.ext <;> simp only [sinh, toC_re, toC_im, Complex.add_re, Complex.add_im, Complex.sub_re, Complex.sub_im, Complex.ofReal_re,
    Complex.ofReal_im, Complex.re_ofReal_mul, Complex.im_ofReal_mul, Complex.I_re, Complex.I_im] <;> ring

theorem toC_cosh (z : Cx) : (cosh z).toC = Complex.cosh z.toC := by
  rw [eq_parts z, Complex.cosh_add, Complex.cosh_mul_I, Complex.sinh_mul_I]
  simp only [toC_re, toC_im, ← Complex.ofReal_sin, ← Complex.ofReal_cos, ← Complex.ofReal_sinh, ← Complex.ofReal_cosh, ← mul_assoc,
    ← Complex.ofReal_mul]
  apply Complex.ext <;> simp only [cosh, toC_re, toC_im, Complex.add_re, Complex.add_im, Complex.sub_re, Complex.sub_im, Complex.ofReal_re,
    Complex.ofReal_im, Complex.re_ofReal_mul, Complex.im_ofReal_mul, Complex.I_re, Complex.I_im] <;> ring

/-- `log` of a number that is not zero. -/
theorem log_some {z : Cx} (h : z.toC ≠ 0) : ∃ l, log z = some l ∧ l.toC = Complex.log z.toC := by
  have := toC_log z
  rw [if_neg h] at this
  exact Option.map_eq_some_iff.1 this

theorem log_zero {z : Cx} (h : z.toC = 0) : log z = none := by
  have := toC_log z
  rw [if_pos h] at this
  exact Option.map_eq_none_iff.1 this

/-- A number and its inverse: their sum has a real part of the sign of the real part of the number. -/
theorem re_of_sum {w v : ℂ} (h : w * v = 1) (hs : 0 ≤ (w + v).re) : 0 ≤ w.re := by
  have hw : w ≠ 0 := by rintro rfl; simp at h
  have ev : v = w⁻¹ := by rw [eq_comm, inv_eq_of_mul_eq_one_right h]
  rw [ev, Complex.add_re, Complex.inv_re] at hs
  have hn := Complex.normSq_pos.2 hw
  by_contra hc
  have h2 := div_neg_of_neg_of_pos (not_le.1 hc) hn
  linarith

theorem exp_log_inv {w v : ℂ} (h : w * v = 1) : Complex.exp (Complex.log w) = w ∧ Complex.exp (-Complex.log w) = v := by
  have hw : w ≠ 0 := by rintro rfl; simp at h
  rw [Complex.exp_neg, Complex.exp_log hw]
  exact ⟨rfl, inv_eq_of_mul_eq_one_right h⟩

end Cx
end Hila
