import Verif.Lemmas.Cmplx
import Mathlib.Analysis.SpecialFunctions.Arcosh
import Mathlib.Analysis.SpecialFunctions.Artanh

/-!
# C82: complex numbers compute the field of complex numbers and its elementary functions

The class is compared with the complex numbers of Mathlib: `toC` is the number with the two parts. A result `none` is a division by zero or a
logarithm of zero.
-/

namespace Hila
open Cx

/-- **C82 (arithmetic).** All operators, the compound assignments (also of a number to itself), the functions in product form and the operators of
imaginary numbers are the operations of the field of complex numbers; a division fails exactly if the divisor is zero. -/
theorem C82_arithmetic (z w : Cx) (a v u : ℝ) :
    (z.add w).toC = z.toC + w.toC ∧ (z.sub w).toC = z.toC - w.toC ∧ (z.mul w).toC = z.toC * w.toC ∧ z.neg.toC = -z.toC ∧
    (z.addS a).toC = z.toC + a ∧ (z.subS a).toC = z.toC - a ∧ (sSub a z).toC = a - z.toC ∧ (z.mulS a).toC = z.toC * a ∧
    (z.mulAssign w).toC = z.toC * w.toC ∧ (z.mulAssignSelf).toC = z.toC * z.toC ∧
    (z.div w).map toC = (if w.toC = 0 then none else some (z.toC / w.toC)) ∧
    (z.divAssign w).map toC = (if w.toC = 0 then none else some (z.toC / w.toC)) ∧
    (z.divS a).map toC = (if a = 0 then none else some (z.toC / a)) ∧
    (sDiv a z).map toC = (if z.toC = 0 then none else some (a / z.toC)) ∧
    z.conj.toC = (starRingEnd ℂ) z.toC ∧ (z.conjMul w).toC = (starRingEnd ℂ) z.toC * w.toC ∧
    (z.mulConj w).toC = z.toC * (starRingEnd ℂ) w.toC ∧ z.squarenorm = ‖z.toC‖ ^ 2 ∧ z.abs = ‖z.toC‖ ∧ z.arg = Complex.arg z.toC ∧
    (polar a v).toC = a * Complex.exp (v * Complex.I) ∧
    (z.eqC w ↔ z.toC = w.toC) ∧ (z.neC w ↔ z.toC ≠ w.toC) ∧ (z.eqS a ↔ z.toC = a) ∧ (z.neS a ↔ z.toC ≠ a) ∧
    (imag v).toC = v * Complex.I ∧ (iMul (imag v) z).toC = v * Complex.I * z.toC ∧ (imagMulS (imag v) a).toC = v * Complex.I * a ∧
    (imagMulImag (imag v) (imag u) : ℂ) = (v * Complex.I) * (u * Complex.I) ∧
    (imagDivS (imag v) a).map toC = (if a = 0 then none else some (v * Complex.I / a)) ∧
    (imagDivImag (imag v) (imag u)).map (fun x : ℝ => (x : ℂ)) = (if u = 0 then none else some (v * Complex.I / (u * Complex.I))) ∧
    I.toC = Complex.I := by
  refine ⟨toC_add _ _, toC_sub _ _, toC_mul _ _, toC_neg _, toC_addS _ _, toC_subS _ _, toC_sSub _ _, toC_mulS _ _, ?_, ?_, toC_div _ _, ?_, ?_,
    ?_, ?_, ?_, ?_, ?_, ?_, arg_eq _, ?_, ?_, ?_, ?_, ?_, ?_, toC_iMul _ _, ?_, ?_, ?_, ?_, toC_I⟩
  · apply Complex.ext <;> simp [mulAssign]; ring
  · apply Complex.ext <;> simp [mulAssignSelf]; ring
  · unfold divAssign
    have hm : max |w.re| |w.im| = 0 ↔ w.toC = 0 := by
      constructor
      · intro h
        have h1 : |w.re| = 0 := le_antisymm (h ▸ le_max_left _ _) (abs_nonneg _)
        have h2 : |w.im| = 0 := le_antisymm (h ▸ le_max_right _ _) (abs_nonneg _)
        exact Complex.ext (abs_eq_zero.1 h1) (abs_eq_zero.1 h2)
      · intro h
        have h1 : w.re = 0 := congrArg Complex.re h
        have h2 : w.im = 0 := congrArg Complex.im h
        simp [h1, h2]
    by_cases h0 : w.toC = 0
    · rw [if_pos h0]; simp [rdiv, hm.2 h0]
    · rw [if_neg h0]
      generalize hM : max |w.re| |w.im| = M at hm
      have hM0 : M ≠ 0 := fun e => h0 (hm.1 e)
      have hn : w.re * w.re + w.im * w.im ≠ 0 := by
        have := Complex.normSq_pos.2 h0
        rw [Complex.normSq_apply] at this; exact ne_of_gt this
      have hs : (w.mulS (1.0 / M)).squarenorm = (w.re * w.re + w.im * w.im) / (M * M) := by
        simp only [mulS, squarenorm]; norm_num; field_simp
      have e1 : rdiv 1.0 M = some (1.0 / M) := by simp [rdiv, hM0]
      rw [e1]
      simp only [Option.bind_some]
      rw [Option.map_map, rdiv_map, if_neg (by rw [hs]; exact div_ne_zero hn (mul_ne_zero hM0 hM0)), hs]
      congr 1
      have e10 : (1.0 : ℝ) = 1 := by norm_num
      rw [e10]
      apply Complex.ext
      · simp [mulS, Complex.div_re, Complex.normSq_apply]; field_simp
      · simp [mulS, Complex.div_im, Complex.normSq_apply]; field_simp
  · unfold divS
    by_cases h0 : a = 0
    · simp [rdiv, h0]
    · simp only [rdiv, if_neg h0, Option.bind_some, Option.map_some]
      congr 1
      apply Complex.ext <;> simp
  · have h : z.squarenorm = 0 ↔ z.toC = 0 := by rw [squarenorm_eq]; exact Complex.normSq_eq_zero
    unfold sDiv
    by_cases h0 : z.toC = 0
    · simp [rdiv, h.2 h0, h0]
    · simp only [rdiv, if_neg h0, if_neg (fun e => h0 (h.1 e)), Option.bind_some, Option.map_some]
      congr 1
      have hn : z.re * z.re + z.im * z.im ≠ 0 := fun e => h0 (h.1 e)
      apply Complex.ext
      · simp [Complex.div_re, squarenorm, Complex.normSq_apply]
      · simp [Complex.div_im, squarenorm, Complex.normSq_apply]; field_simp
  · apply Complex.ext <;> simp [Cx.conj]
  · apply Complex.ext <;> simp [conjMul]; ring
  · apply Complex.ext <;> simp [mulConj]; ring
  · rw [squarenorm_eq, Complex.normSq_eq_norm_sq]
  · unfold Cx.abs
    rw [squarenorm_eq, Complex.normSq_eq_norm_sq, Real.sqrt_sq (norm_nonneg _)]
  · rw [← toC_expi]; apply Complex.ext <;> simp [polar, expi]
  · exact ⟨fun h => Complex.ext h.1 h.2, fun h => ⟨congrArg Complex.re h, congrArg Complex.im h⟩⟩
  · unfold neC; rw [← not_and_or]
    exact not_congr ⟨fun h => Complex.ext h.1 h.2, fun h => ⟨congrArg Complex.re h, congrArg Complex.im h⟩⟩
  · exact ⟨fun h => Complex.ext h.1 h.2, fun h => ⟨congrArg Complex.re h, congrArg Complex.im h⟩⟩
  · unfold neS; rw [← not_and_or]
    exact not_congr ⟨fun h => Complex.ext h.1 h.2, fun h => ⟨congrArg Complex.re h, congrArg Complex.im h⟩⟩
  · apply Complex.ext <;> simp [imag]
  · apply Complex.ext <;> simp [imagMulS, imag]
  · apply Complex.ext <;> simp [imagMulImag, imag]
  · unfold imagDivS
    by_cases h0 : a = 0
    · simp [rdiv, h0]
    · simp only [rdiv, if_neg h0, Option.map_some]
      congr 1
      apply Complex.ext <;> simp [imag]
  · unfold imagDivImag
    by_cases h0 : u = 0
    · simp [rdiv, h0, imag]
    · have hu : (u : ℂ) ≠ 0 := by exact_mod_cast h0
      have e : rdiv (imag v).im (imag u).im = some (v / u) := by unfold rdiv; exact if_neg h0
      rw [e, Option.map_some, if_neg h0]
      congr 1
      push_cast
      rw [mul_div_mul_right _ _ Complex.I_ne_zero]

/-- **C82 (I times objects).** `I` times an object that contains any number of complex numbers multiplies each of them by `i`. -/
theorem C82_object {k : ℕ} (v : ℝ) (c : Fin k → Cx) (j : Fin k) : (imagMul (imag v) c j).toC = v * Complex.I * (c j).toC :=
  toC_iMul v (c j)

/-- **C82 (functions).** The elementary functions are those of the complex plane with the principal branch of the logarithm. -/
theorem C82_functions (z p : Cx) (a : ℝ) :
    (exp z).toC = Complex.exp z.toC ∧ (expi a).toC = Complex.exp (a * Complex.I) ∧
    (sin z).toC = Complex.sin z.toC ∧ (cos z).toC = Complex.cos z.toC ∧ (sinh z).toC = Complex.sinh z.toC ∧ (cosh z).toC = Complex.cosh z.toC ∧
    (tan z).map toC = (if Complex.cos z.toC = 0 then none else some (Complex.tan z.toC)) ∧
    (tanh z).map toC = (if Complex.cosh z.toC = 0 then none else some (Complex.tanh z.toC)) ∧
    (log z).map toC = (if z.toC = 0 then none else some (Complex.log z.toC)) ∧
    (sqrt z).toC ^ 2 = z.toC ∧ 0 ≤ (sqrt z).re ∧ (sqrt z).toC = z.toC ^ (1 / 2 : ℂ) ∧
    (cbrt z).toC ^ 3 = z.toC ∧ (cbrt z).toC = z.toC ^ (1 / 3 : ℂ) ∧
    (pow z p).map toC = (if z.toC = 0 then none else some (z.toC ^ p.toC)) ∧
    (powS z a).map toC = (if z.toC = 0 then none else some (z.toC ^ (a : ℂ))) ∧
    (atan z).map toC = (if z.toC = Complex.I ∨ z.toC = -Complex.I then none else some (Complex.arctan z.toC)) := by
  refine ⟨toC_exp z, toC_expi a, toC_sin z, toC_cos z, toC_sinh z, toC_cosh z, ?_, ?_, toC_log z, sqrt_sq z, sqrt_re z, ?_, cbrt_cube z, ?_, ?_, ?_, ?_⟩
  · unfold Cx.tan
    rw [toC_div, toC_sin, toC_cos]; rfl
  · unfold Cx.tanh
    rw [toC_div, toC_sinh, toC_cosh]; rfl
  · rw [toC_sqrt]; norm_num
  · rw [toC_cbrt]; norm_num
  · unfold Cx.pow
    by_cases h0 : z.toC = 0
    · rw [log_zero h0, if_pos h0]; rfl
    · obtain ⟨l, hl, e⟩ := log_some h0
      rw [hl, if_neg h0, Complex.cpow_def_of_ne_zero h0, ← e]
      simp only [Option.map_some]
      rw [toC_exp, toC_mul, mul_comm]
  · unfold powS
    by_cases h0 : z.toC = 0
    · rw [log_zero h0, if_pos h0]; rfl
    · obtain ⟨l, hl, e⟩ := log_some h0
      rw [hl, if_neg h0, Complex.cpow_def_of_ne_zero h0, ← e]
      simp only [Option.map_some]
      rw [toC_exp, toC_mulS]
  · unfold Cx.atan
    have hd := toC_div (Cx.I.sub z) (Cx.I.add z)
    rw [toC_add, toC_sub, toC_I] at hd
    by_cases h1 : Complex.I + z.toC = 0
    · rw [if_pos h1] at hd
      rw [Option.map_eq_none_iff.1 hd, if_pos (Or.inr (eq_neg_of_add_eq_zero_right h1))]; rfl
    · rw [if_neg h1] at hd
      obtain ⟨q, hq, e⟩ := Option.map_eq_some_iff.1 hd
      rw [hq]
      simp only [Option.bind_some]
      by_cases h2 : z.toC = Complex.I
      · rw [if_pos (Or.inl h2), log_zero (by rw [e, h2]; simp)]; rfl
      · have hq0 : q.toC ≠ 0 := by
          rw [e]; exact div_ne_zero (sub_ne_zero.2 (Ne.symm h2)) h1
        have h3 : z.toC ≠ -Complex.I := fun h => h1 (by rw [h]; ring)
        obtain ⟨l, hl, el⟩ := log_some hq0
        rw [hl, if_neg (by tauto)]
        simp only [Option.map_some]
        have ei : imagMulS Cx.I (-0.5) = imag (-0.5) := by ext <;> simp [imagMulS, Cx.I, imag]
        rw [ei, toC_iMul, el, e, Complex.arctan]
        have eq : (Complex.I - z.toC) / (Complex.I + z.toC) = (1 + z.toC * Complex.I) / (1 - z.toC * Complex.I) := by
          have h4 : (1 : ℂ) - z.toC * Complex.I ≠ 0 := by
            intro h
            apply h1
            have : Complex.I * (1 - z.toC * Complex.I) = Complex.I + z.toC := by
              rw [mul_sub, mul_comm z.toC, ← mul_assoc, Complex.I_mul_I]; ring
            rw [← this, h, mul_zero]
          rw [div_eq_div_iff h1 h4]
          ring_nf
          rw [Complex.I_sq]; ring
        rw [eq]
        congr 2
        push_cast; norm_num; ring

/-- **C82 (scalar base).** A positive number to a complex power. -/
theorem C82_scalar_power_partial (x : ℝ) (hx : 0 < x) (p : Cx) : (sPow x p).map toC = some ((x : ℂ) ^ p.toC) := by
  unfold sPow rlog
  rw [if_pos hx, Complex.cpow_def_of_ne_zero (by exact_mod_cast hx.ne')]
  simp only [Option.map_some]
  rw [toC_exp, toC_mulS, Complex.ofReal_log hx.le, mul_comm]

/-- **C82 (scalar base, wrong).** `pow(x, p)` with a real number `x < 0` and a complex power takes the real logarithm of a negative number, so that the
result is not a number, although the power is defined and `pow(Complex(x), p)` returns it. -/
theorem C82_scalar_power_wrong (x : ℝ) (hx : x < 0) (p : Cx) :
    sPow x p = none ∧ (pow (ofScalar x) p).map toC = some ((x : ℂ) ^ p.toC) := by
  constructor
  · unfold sPow rlog; rw [if_neg (by linarith)]; rfl
  · have e : (ofScalar x).toC = (x : ℂ) := by apply Complex.ext <;> simp [ofScalar]
    have h := (C82_functions (ofScalar x) p 0).2.2.2.2.2.2.2.2.2.2.2.2.2.2.1
    rw [e, if_neg (by exact_mod_cast hx.ne)] at h
    exact h

/-- **C82 (inverse functions).** `asin`, `acos`, `asinh` always have a value, `atanh` except at `±1`. The value is an inverse image, in the strip of the
principal branch. -/
theorem C82_inverse (z : Cx) :
    (∃ w, asin z = some w ∧ Complex.sin w.toC = z.toC ∧ -(Real.pi / 2) ≤ w.re ∧ w.re ≤ Real.pi / 2) ∧
    (∃ w, acos z = some w ∧ Complex.cos w.toC = z.toC ∧ 0 ≤ w.re ∧ w.re ≤ Real.pi) ∧
    (∃ w, asinh z = some w ∧ Complex.sinh w.toC = z.toC ∧ -(Real.pi / 2) ≤ w.im ∧ w.im ≤ Real.pi / 2) ∧
    (z.toC ≠ 1 → z.toC ≠ -1 →
      ∃ w, atanh z = some w ∧ Complex.tanh w.toC = z.toC ∧ -(Real.pi / 2) < w.im ∧ w.im ≤ Real.pi / 2) ∧
    (z.toC = 1 ∨ z.toC = -1 → atanh z = none) ∧
    (∃ w, acosh z = some w ∧ Complex.cosh w.toC = z.toC ∧ -Real.pi < w.im ∧ w.im ≤ Real.pi) := by
  have hpi := Real.pi_pos
  have es : (sqrt (sSub 1 (z.mul z))).toC ^ 2 = 1 - z.toC * z.toC := by rw [sqrt_sq, toC_sSub, toC_mul]; norm_num
  have er := sqrt_re (sSub 1 (z.mul z))
  generalize hs : (sqrt (sSub 1 (z.mul z))).toC = s at es er
  have eprod : (Complex.I * z.toC + s) * (s - Complex.I * z.toC) = 1 := by
    have : (Complex.I * z.toC + s) * (s - Complex.I * z.toC) = s ^ 2 - Complex.I ^ 2 * (z.toC * z.toC) := by ring
    rw [this, es, Complex.I_sq]; ring
  have etm : imag (-Cx.I.im) = imag (-1) := rfl
  refine ⟨?_, ?_, ?_, ?_, ?_, ?_⟩
  · have ew : ((iMul Cx.I z).add (sqrt (sSub 1 (z.mul z)))).toC = Complex.I * z.toC + s := by
      rw [toC_add, hs]; congr 1
      have := toC_iMul 1 z; rw [Complex.ofReal_one, one_mul] at this; exact this
    have h0 : Complex.I * z.toC + s ≠ 0 := by intro h; rw [h] at eprod; simp at eprod
    obtain ⟨l, hl, el⟩ := log_some (z := (iMul Cx.I z).add (sqrt (sSub 1 (z.mul z)))) (by rw [ew]; exact h0)
    have hre : 0 ≤ (Complex.I * z.toC + s).re := re_of_sum eprod (by
      have : (Complex.I * z.toC + s) + (s - Complex.I * z.toC) = 2 * s := by ring
      rw [this]; simp; exact er)
    refine ⟨iMul (imag (-Cx.I.im)) l, by unfold Cx.asin; rw [hl]; rfl, ?_, ?_⟩
    · obtain ⟨e1, e2⟩ := exp_log_inv eprod
      rw [etm, toC_iMul, el, ew, Complex.sin]
      have x1 : -(((-1 : ℝ) : ℂ) * Complex.I * Complex.log (Complex.I * z.toC + s)) * Complex.I = -Complex.log (Complex.I * z.toC + s) := by
        push_cast; ring_nf; rw [Complex.I_sq]; ring
      have x2 : (((-1 : ℝ) : ℂ) * Complex.I * Complex.log (Complex.I * z.toC + s)) * Complex.I = Complex.log (Complex.I * z.toC + s) := by
        push_cast; ring_nf; rw [Complex.I_sq]; ring
      rw [x1, x2, e1, e2]
      ring_nf; rw [Complex.I_sq]; ring
    · have e : (iMul (imag (-Cx.I.im)) l).re = Complex.arg (Complex.I * z.toC + s) := by
        rw [← Complex.log_im, ← ew, ← el]; simp [iMul, imagMul, imag, Cx.I]
      rw [e]
      have := (Complex.abs_arg_le_pi_div_two_iff).2 hre
      exact abs_le.1 this
  · have ew : (z.add (iMul Cx.I (sqrt (sSub 1 (z.mul z))))).toC = z.toC + Complex.I * s := by
      rw [toC_add]; congr 1
      have := toC_iMul 1 (sqrt (sSub 1 (z.mul z))); rw [Complex.ofReal_one, one_mul, hs] at this; exact this
    have eprod2 : (z.toC + Complex.I * s) * (z.toC - Complex.I * s) = 1 := by
      have : (z.toC + Complex.I * s) * (z.toC - Complex.I * s) = z.toC * z.toC - Complex.I ^ 2 * s ^ 2 := by ring
      rw [this, es, Complex.I_sq]; ring
    have h0 : z.toC + Complex.I * s ≠ 0 := by intro h; rw [h] at eprod2; simp at eprod2
    obtain ⟨l, hl, el⟩ := log_some (z := z.add (iMul Cx.I (sqrt (sSub 1 (z.mul z))))) (by rw [ew]; exact h0)
    have hre : 0 ≤ (s - Complex.I * z.toC).re := re_of_sum (v := Complex.I * z.toC + s) (by rw [mul_comm]; exact eprod) (by
      have : (s - Complex.I * z.toC) + (Complex.I * z.toC + s) = 2 * s := by ring
      rw [this]; simp; exact er)
    have him : 0 ≤ (z.toC + Complex.I * s).im := by
      simp at hre ⊢; linarith
    refine ⟨iMul (imag (-Cx.I.im)) l, by unfold Cx.acos; rw [hl]; rfl, ?_, ?_⟩
    · obtain ⟨e1, e2⟩ := exp_log_inv eprod2
      rw [etm, toC_iMul, el, ew, Complex.cos]
      have x1 : -(((-1 : ℝ) : ℂ) * Complex.I * Complex.log (z.toC + Complex.I * s)) * Complex.I = -Complex.log (z.toC + Complex.I * s) := by
        push_cast; ring_nf; rw [Complex.I_sq]; ring
      have x2 : (((-1 : ℝ) : ℂ) * Complex.I * Complex.log (z.toC + Complex.I * s)) * Complex.I = Complex.log (z.toC + Complex.I * s) := by
        push_cast; ring_nf; rw [Complex.I_sq]; ring
      rw [x1, x2, e1, e2]; ring
    · have e : (iMul (imag (-Cx.I.im)) l).re = Complex.arg (z.toC + Complex.I * s) := by
        rw [← Complex.log_im, ← ew, ← el]; simp [iMul, imagMul, imag, Cx.I]
      rw [e]
      exact ⟨Complex.arg_nonneg_iff.2 him, Complex.arg_le_pi _⟩
  · have et : (sqrt ((z.mul z).addS 1)).toC ^ 2 = z.toC * z.toC + 1 := by rw [sqrt_sq, toC_addS, toC_mul]; norm_num
    have etr := sqrt_re ((z.mul z).addS 1)
    generalize ht : (sqrt ((z.mul z).addS 1)).toC = t at et etr
    have ep : (z.toC + t) * (t - z.toC) = 1 := by
      have : (z.toC + t) * (t - z.toC) = t ^ 2 - z.toC * z.toC := by ring
      rw [this, et]; ring
    have ew : (z.add (sqrt ((z.mul z).addS 1))).toC = z.toC + t := by rw [toC_add, ht]
    have h0 : z.toC + t ≠ 0 := by intro h; rw [h] at ep; simp at ep
    obtain ⟨l, hl, el⟩ := log_some (z := z.add (sqrt ((z.mul z).addS 1))) (by rw [ew]; exact h0)
    have hre : 0 ≤ (z.toC + t).re := re_of_sum ep (by
      have : (z.toC + t) + (t - z.toC) = 2 * t := by ring
      rw [this]; simp; exact etr)
    refine ⟨l, hl, ?_, ?_⟩
    · obtain ⟨e1, e2⟩ := exp_log_inv ep
      rw [el, ew, Complex.sinh, e1, e2]; ring
    · have e : l.im = Complex.arg (z.toC + t) := by rw [← Complex.log_im, ← ew, ← el]; rfl
      rw [e]
      exact abs_le.1 ((Complex.abs_arg_le_pi_div_two_iff).2 hre)
  · intro h1 h2
    have hd := toC_div (z.addS 1) (sSub 1 z)
    have hn : (1 : ℂ) - z.toC ≠ 0 := sub_ne_zero.2 (Ne.symm h1)
    have hp : (1 : ℂ) + z.toC ≠ 0 := fun h => h2 (eq_neg_of_add_eq_zero_right h)
    rw [toC_addS, toC_sSub, Complex.ofReal_one, add_comm z.toC, if_neg hn] at hd
    obtain ⟨q, hq, e⟩ := Option.map_eq_some_iff.1 hd
    have hq0 : q.toC ≠ 0 := by rw [e]; exact div_ne_zero hp hn
    obtain ⟨l, hl, el⟩ := log_some hq0
    refine ⟨l.mulS 0.5, by unfold Cx.atanh; rw [hq]; simp [hl], ?_, ?_⟩
    · have eh : (l.mulS 0.5).toC = Complex.log q.toC / 2 := by rw [toC_mulS, el]; push_cast; norm_num; ring
      rw [eh]
      have hE : Complex.exp (Complex.log q.toC / 2) ^ 2 = q.toC := by
        rw [← Complex.exp_nat_mul]; push_cast; rw [mul_div_cancel₀ _ two_ne_zero, Complex.exp_log hq0]
      have hE0 := Complex.exp_ne_zero (Complex.log q.toC / 2)
      rw [Complex.tanh_eq_sinh_div_cosh, Complex.sinh, Complex.cosh, Complex.exp_neg]
      generalize Complex.exp (Complex.log q.toC / 2) = E at hE hE0
      have hq1 : q.toC + 1 = 2 / (1 - z.toC) := by rw [e]; field_simp; ring
      have hq2 : q.toC - 1 = 2 * z.toC / (1 - z.toC) := by rw [e]; field_simp; ring
      have hne : E ^ 2 + 1 ≠ 0 := by rw [hE, hq1]; exact div_ne_zero two_ne_zero hn
      have : (E - E⁻¹) / 2 / ((E + E⁻¹) / 2) = (E ^ 2 - 1) / (E ^ 2 + 1) := by
        have h5 : E + E⁻¹ ≠ 0 := by
          intro h; apply hne
          have : E * (E + E⁻¹) = E ^ 2 + 1 := by field_simp
          rw [← this, h, mul_zero]
        rw [div_div_div_cancel_right₀ two_ne_zero, div_eq_div_iff h5 hne]
        field_simp
      rw [this, hE, hq1, hq2]
      field_simp
    · have e3 : (l.mulS 0.5).im = Complex.arg q.toC / 2 := by
        have : l.im = Complex.arg q.toC := by rw [← Complex.log_im, ← el]; rfl
        simp only [mulS]; rw [this]; norm_num; ring
      rw [e3]
      have := Complex.neg_pi_lt_arg q.toC
      have := Complex.arg_le_pi q.toC
      constructor <;> linarith
  · intro h
    have hd := toC_div (z.addS 1) (sSub 1 z)
    rw [toC_addS, toC_sSub, Complex.ofReal_one] at hd
    unfold Cx.atanh
    rcases h with h | h
    · rw [if_pos (by rw [h]; ring)] at hd
      rw [Option.map_eq_none_iff.1 hd]; rfl
    · rw [if_neg (by rw [h]; norm_num)] at hd
      obtain ⟨q, hq, e⟩ := Option.map_eq_some_iff.1 hd
      rw [hq]
      simp only [Option.bind_some]
      rw [log_zero (by rw [e, h]; simp)]; rfl
  · have et : (sqrt ((z.mul z).subS 1)).toC ^ 2 = z.toC * z.toC - 1 := by rw [sqrt_sq, toC_subS, toC_mul]; norm_num
    generalize ht : (sqrt ((z.mul z).subS 1)).toC = t at et
    have ep : (z.toC + t) * (z.toC - t) = 1 := by
      have : (z.toC + t) * (z.toC - t) = z.toC * z.toC - t ^ 2 := by ring
      rw [this, et]; ring
    have ew : (z.add (sqrt ((z.mul z).subS 1))).toC = z.toC + t := by rw [toC_add, ht]
    have h0 : z.toC + t ≠ 0 := by intro h; rw [h] at ep; simp at ep
    obtain ⟨l, hl, el⟩ := log_some (z := z.add (sqrt ((z.mul z).subS 1))) (by rw [ew]; exact h0)
    refine ⟨l, hl, ?_, ?_⟩
    · obtain ⟨e1, e2⟩ := exp_log_inv ep
      rw [el, ew, Complex.cosh, e1, e2]; ring
    · have e : l.im = Complex.arg (z.toC + t) := by rw [← Complex.log_im, ← ew, ← el]; rfl
      rw [e]
      exact ⟨Complex.neg_pi_lt_arg _, Complex.arg_le_pi _⟩

/-- The value of `acosh`, the sum of which it is the logarithm and the inverse of the sum. -/
theorem acosh_parts (z : Cx) :
    ∃ w : Cx, ∃ t : ℂ, acosh z = some w ∧ t ^ 2 = z.toC * z.toC - 1 ∧ 0 ≤ t.re ∧ (z.toC + t) * (z.toC - t) = 1 ∧ w.toC = Complex.log (z.toC + t) := by
  have et : (sqrt ((z.mul z).subS 1)).toC ^ 2 = z.toC * z.toC - 1 := by rw [sqrt_sq, toC_subS, toC_mul]; norm_num
  have ep : (z.toC + (sqrt ((z.mul z).subS 1)).toC) * (z.toC - (sqrt ((z.mul z).subS 1)).toC) = 1 := by
    have : (z.toC + (sqrt ((z.mul z).subS 1)).toC) * (z.toC - (sqrt ((z.mul z).subS 1)).toC) =
      z.toC * z.toC - (sqrt ((z.mul z).subS 1)).toC ^ 2 := by ring
    rw [this, et]; ring
  have h0 : z.toC + (sqrt ((z.mul z).subS 1)).toC ≠ 0 := by intro h; rw [h] at ep; simp at ep
  obtain ⟨l, hl, el⟩ := log_some (z := z.add (sqrt ((z.mul z).subS 1))) (by rw [toC_add]; exact h0)
  exact ⟨l, _, hl, et, sqrt_re _, ep, by rw [el, toC_add]⟩

theorem acosh_sign {z t : ℂ} (ht : t ^ 2 = z * z - 1) (hr : 0 ≤ t.re) (hp : (z + t) * (z - t) = 1) :
    (0 < z.re → 0 ≤ (Complex.log (z + t)).re) ∧ (z.re < 0 → (Complex.log (z + t)).re ≤ 0) := by
  have him : t.re * t.im = z.re * z.im := by
    have := congrArg Complex.im ht
    simp [pow_two] at this
    linarith
  have hn : ‖z + t‖ * ‖z - t‖ = 1 := by rw [← norm_mul, hp, norm_one]
  have hd : ‖z + t‖ ^ 2 - ‖z - t‖ ^ 2 = 4 * (z.re * t.re + z.im * t.im) := by
    rw [← Complex.normSq_eq_norm_sq, ← Complex.normSq_eq_norm_sq]
    simp [Complex.normSq_apply]; ring
  have hpos : 0 < ‖z + t‖ := by
    rcases (norm_nonneg (z + t)).lt_or_eq with h | h
    · exact h
    · rw [← h] at hn; simp at hn
  have hpos' : 0 < ‖z - t‖ := by
    rcases (norm_nonneg (z - t)).lt_or_eq with h | h
    · exact h
    · rw [← h] at hn; simp at hn
  have key : (z.im * t.im) * t.re = z.re * (z.im * z.im) := by linear_combination z.im * him
  rw [Complex.log_re]
  constructor
  · intro hz
    have h1 : 0 ≤ z.im * t.im := by
      rcases hr.lt_or_eq with h | h
      · by_contra hc
        have := mul_neg_of_neg_of_pos (not_le.1 hc) h
        rw [key] at this
        have := mul_nonneg hz.le (mul_self_nonneg z.im)
        linarith
      · have : z.im = 0 := by
          rw [← h, zero_mul] at him
          rcases mul_eq_zero.1 him.symm with h | h
          · exact absurd h hz.ne'
          · exact h
        rw [this, zero_mul]
    have h2 : 0 ≤ ‖z + t‖ ^ 2 - ‖z - t‖ ^ 2 := by
      rw [hd]; have := mul_nonneg hz.le hr; linarith
    have h3 : ‖z - t‖ ≤ ‖z + t‖ := by
      by_contra hc
      have := not_le.1 hc
      nlinarith
    refine Real.log_nonneg ?_
    by_contra hc
    have := not_le.1 hc
    nlinarith
  · intro hz
    have h1 : z.im * t.im ≤ 0 := by
      rcases hr.lt_or_eq with h | h
      · by_contra hc
        have := mul_pos (not_le.1 hc) h
        rw [key] at this
        have := mul_nonneg (neg_nonneg.2 hz.le) (mul_self_nonneg z.im)
        linarith
      · have : z.im = 0 := by
          rw [← h, zero_mul] at him
          rcases mul_eq_zero.1 him.symm with h | h
          · exact absurd h hz.ne
          · exact h
        rw [this, zero_mul]
    have h2 : ‖z + t‖ ^ 2 - ‖z - t‖ ^ 2 ≤ 0 := by
      rw [hd]; have := mul_nonneg (neg_nonneg.2 hz.le) hr; linarith
    have h3 : ‖z + t‖ ≤ ‖z - t‖ := by
      by_contra hc
      have := not_le.1 hc
      nlinarith
    refine Real.log_nonpos hpos.le ?_
    by_contra hc
    have := not_le.1 hc
    nlinarith

/-- **C82 (acosh).** In the right half plane the real part of the value of `acosh` is not negative, as it is for the principal value. -/
theorem C82_acosh_partial (z : Cx) (hz : 0 < z.re) : ∃ w, acosh z = some w ∧ Complex.cosh w.toC = z.toC ∧ 0 ≤ w.re := by
  obtain ⟨w, t, hw, ht, hr, hp, e⟩ := acosh_parts z
  obtain ⟨w', hw', hc, -⟩ := (C82_inverse z).2.2.2.2.2
  rw [hw] at hw'; cases hw'
  refine ⟨w, hw, hc, ?_⟩
  have := (acosh_sign ht hr hp).1 hz
  rw [← e] at this; exact this

theorem sqrt_real {y : ℝ} (hy : 0 ≤ y) : sqrt (ofScalar y) = ofScalar (Real.sqrt y) := by
  have h1 := sqrt_sq (ofScalar y)
  have h2 := sqrt_re (ofScalar y)
  generalize sqrt (ofScalar y) = s at h1 h2
  have a := congrArg Complex.re h1
  have b := congrArg Complex.im h1
  simp [pow_two, ofScalar] at a b h2
  have hb : s.re * s.im = 0 := by linarith
  have him : s.im = 0 := by
    rcases mul_eq_zero.1 hb with h | h
    · rw [h] at a; nlinarith [mul_self_nonneg s.im]
    · exact h
  rw [him] at a
  ext
  · simp only [ofScalar]
    rw [eq_comm, Real.sqrt_eq_iff_mul_self_eq hy h2]; linarith
  · simp [ofScalar, him]

theorem log_real {y : ℝ} (hy : 0 < y) : log (ofScalar y) = some (ofScalar (Real.log y)) := by
  have e : (ofScalar y).toC = (y : ℂ) := by apply Complex.ext <;> simp [ofScalar]
  obtain ⟨l, hl, el⟩ := log_some (z := ofScalar y) (by rw [e]; exact_mod_cast hy.ne')
  rw [hl]; congr 1
  apply toC_inj
  rw [el, e, ← Complex.ofReal_log hy.le]
  apply Complex.ext <;> simp [ofScalar]

theorem toC_scalar (y : ℝ) : (ofScalar y).toC = (y : ℂ) := by apply Complex.ext <;> simp [ofScalar]

/-- **C82 (acosh, wrong).** On the real axis below -1 `acosh` returns `-arcosh(-x) + iπ`, which has a negative real part, where the principal value of the C
library is `arcosh(-x) + iπ`; in the whole left half plane the real part is not positive. -/
theorem C82_acosh_wrong :
    (∀ x : ℝ, x < -1 → acosh (ofScalar x) = some ⟨-Real.arcosh (-x), Real.pi⟩ ∧ -Real.arcosh (-x) < 0) ∧
    (∀ z : Cx, z.re < 0 → ∃ w, acosh z = some w ∧ Complex.cosh w.toC = z.toC ∧ w.re ≤ 0) := by
  constructor
  · intro x hx
    refine ⟨?_, neg_neg_of_pos (Real.arcosh_pos (by linarith))⟩
    have hy : 0 ≤ x * x - 1 := by nlinarith
    have e1 : ((ofScalar x).mul (ofScalar x)).subS 1 = ofScalar (x * x - 1) := by ext <;> simp [ofScalar, mul, subS]
    have e2 : (ofScalar x).add (ofScalar (Real.sqrt (x * x - 1))) = ofScalar (x + Real.sqrt (x * x - 1)) := by ext <;> simp [ofScalar, add]
    have hs := Real.mul_self_sqrt hy
    have hs0 := Real.sqrt_nonneg (x * x - 1)
    unfold Cx.acosh
    rw [e1, sqrt_real hy, e2]
    generalize hS : Real.sqrt (x * x - 1) = S at hs hs0
    have hneg : x + S < 0 := by nlinarith
    obtain ⟨l, hl, el⟩ := log_some (z := ofScalar (x + S)) (by rw [toC_scalar]; exact_mod_cast hneg.ne)
    rw [hl]; congr 1
    apply toC_inj
    rw [el, toC_scalar]
    apply Complex.ext
    · rw [Complex.log_re, Complex.norm_real, Real.norm_eq_abs, abs_of_neg hneg, toC_re, Real.arcosh, ← Real.log_inv]
      have e3 : (-x) ^ 2 - 1 = x * x - 1 := by ring
      rw [e3, hS]
      congr 1
      rw [eq_comm, inv_eq_of_mul_eq_one_left]
      nlinarith
    · rw [Complex.log_im, Complex.arg_ofReal_of_neg hneg]; rfl
  · intro z hz
    obtain ⟨w, t, hw, ht, hr, hp, e⟩ := acosh_parts z
    obtain ⟨w', hw', hc, -⟩ := (C82_inverse z).2.2.2.2.2
    rw [hw] at hw'; cases hw'
    refine ⟨w, hw, hc, ?_⟩
    have := (acosh_sign ht hr hp).2 hz
    rw [← e] at this; exact this

/-- **C82 (real arguments).** On real arguments in the domain of the real function the functions return the real value. -/
theorem C82_real (x : ℝ) :
    (0 ≤ x → sqrt (ofScalar x) = ofScalar (Real.sqrt x)) ∧ (0 < x → log (ofScalar x) = some (ofScalar (Real.log x))) ∧
    (|x| ≤ 1 → asin (ofScalar x) = some (ofScalar (Real.arcsin x)) ∧ acos (ofScalar x) = some (ofScalar (Real.arccos x))) ∧
    atan (ofScalar x) = some (ofScalar (Real.arctan x)) ∧ asinh (ofScalar x) = some (ofScalar (Real.arsinh x)) ∧
    (1 ≤ x → acosh (ofScalar x) = some (ofScalar (Real.arcosh x))) ∧
    (|x| < 1 → atanh (ofScalar x) = some (ofScalar (Real.artanh x))) := by
  refine ⟨sqrt_real, log_real, ?_, ?_, ?_, ?_, ?_⟩
  · intro hx
    have hy : 0 ≤ 1 - x * x := by have := sq_le_one_iff_abs_le_one x |>.2 hx; nlinarith
    have hs := Real.mul_self_sqrt hy
    have e1 : sSub 1 ((ofScalar x).mul (ofScalar x)) = ofScalar (1 - x * x) := by ext <;> simp [ofScalar, mul, sSub]
    obtain ⟨⟨w, hw, hsin, ha, hb⟩, ⟨v, hv, hcos, hc, hd⟩, -⟩ := C82_inverse (ofScalar x)
    rw [hw, hv]
    have im0 : ∀ (u : Cx) (l : Cx), log u = some l → u.squarenorm = 1 → l.re = 0 := by
      intro u l h h1
      unfold Cx.log rlog at h
      rw [h1, if_pos one_pos] at h
      simp at h
      rw [← h]
    have hwi : w.im = 0 := by
      unfold Cx.asin at hw
      obtain ⟨l, hl, e⟩ := Option.map_eq_some_iff.1 hw
      have := im0 _ _ hl (by rw [e1, sqrt_real hy]; simp [squarenorm, add, iMul, imagMul, Cx.I, imag, ofScalar]; linarith)
      rw [← e]; simp [iMul, imagMul, this]
    have hvi : v.im = 0 := by
      unfold Cx.acos at hv
      obtain ⟨l, hl, e⟩ := Option.map_eq_some_iff.1 hv
      have := im0 _ _ hl (by rw [e1, sqrt_real hy]; simp [squarenorm, add, iMul, imagMul, Cx.I, imag, ofScalar]; linarith)
      rw [← e]; simp [iMul, imagMul, this]
    have ew : w.toC = (w.re : ℂ) := by apply Complex.ext <;> simp [hwi]
    have ev : v.toC = (v.re : ℂ) := by apply Complex.ext <;> simp [hvi]
    rw [ew, toC_scalar, ← Complex.ofReal_sin] at hsin
    rw [ev, toC_scalar, ← Complex.ofReal_cos] at hcos
    have hsin' : Real.sin w.re = x := by exact_mod_cast hsin
    have hcos' : Real.cos v.re = x := by exact_mod_cast hcos
    constructor
    · congr 1; ext
      · simp only [ofScalar]; rw [← hsin', Real.arcsin_sin ha hb]
      · exact hwi
    · congr 1; ext
      · simp only [ofScalar]; rw [← hcos', Real.arccos_cos hc hd]
      · exact hvi
  · have h := (C82_functions (ofScalar x) (ofScalar x) 0).2.2.2.2.2.2.2.2.2.2.2.2.2.2.2.2
    rw [if_neg] at h
    · obtain ⟨w, hw, e⟩ := Option.map_eq_some_iff.1 h
      rw [hw]; congr 1
      apply toC_inj
      rw [e, toC_scalar, toC_scalar, Complex.ofReal_arctan]
    · rw [toC_scalar]
      rintro (h | h) <;> · have := congrArg Complex.im h; simp at this
  · have hy : 0 ≤ x * x + 1 := by nlinarith [mul_self_nonneg x]
    have e1 : ((ofScalar x).mul (ofScalar x)).addS 1 = ofScalar (x * x + 1) := by ext <;> simp [ofScalar, mul, addS]
    have e2 : (ofScalar x).add (ofScalar (Real.sqrt (x * x + 1))) = ofScalar (x + Real.sqrt (1 + x ^ 2)) := by
      ext <;> simp [ofScalar, add]; ring_nf
    unfold Cx.asinh
    rw [e1, sqrt_real hy, e2, log_real]
    · rfl
    · rw [← Real.exp_arsinh]; exact Real.exp_pos _
  · intro hx
    have hy : 0 ≤ x * x - 1 := by nlinarith
    have e1 : ((ofScalar x).mul (ofScalar x)).subS 1 = ofScalar (x * x - 1) := by ext <;> simp [ofScalar, mul, subS]
    have e2 : (ofScalar x).add (ofScalar (Real.sqrt (x * x - 1))) = ofScalar (x + Real.sqrt (x ^ 2 - 1)) := by
      ext <;> simp [ofScalar, add]; ring_nf
    unfold Cx.acosh
    rw [e1, sqrt_real hy, e2, log_real]
    · rfl
    · rw [← Real.exp_arcosh hx]; exact Real.exp_pos _
  · intro hx
    obtain ⟨h1, h2⟩ := abs_lt.1 hx
    have hn : 1 - x ≠ 0 := by linarith
    have hd := toC_div ((ofScalar x).addS 1) (sSub 1 (ofScalar x))
    rw [toC_addS, toC_sSub, toC_scalar, if_neg (by intro h; apply hn; exact_mod_cast h)] at hd
    obtain ⟨q, hq, e⟩ := Option.map_eq_some_iff.1 hd
    have eq : q = ofScalar ((1 + x) / (1 - x)) := by
      apply toC_inj; rw [e, toC_scalar]; push_cast; ring
    unfold Cx.atanh
    rw [hq, eq]
    simp only [Option.bind_some]
    rw [log_real (div_pos (by linarith) (by linarith)), Real.artanh_eq_half_log ⟨h1.le, h2.le⟩]
    simp only [Option.map_some]
    congr 1; ext
    · simp [mulS, ofScalar]; norm_num; ring
    · simp [mulS, ofScalar]

/-- **C82 (imaginary objects, wrong).** An imaginary number inherits the compound assignments of complex numbers. After `a *= I` on `a = v I` the object of
the type of imaginary numbers holds the real number `-v`, but its products with complex numbers use its imaginary part only: they are zero. -/
theorem C82_imaginary_wrong (v : ℝ) (z : Cx) :
    ((imag v).mulAssign Cx.I).toC = -v ∧ (iMul ((imag v).mulAssign Cx.I) z).toC = 0 := by
  constructor
  · apply Complex.ext <;> simp [mulAssign, imag, Cx.I]
  · apply Complex.ext <;> simp [mulAssign, imag, Cx.I, iMul, imagMul]

example : ((⟨1, 2⟩ : Cx).mul ⟨3, -1⟩) = ⟨5, 5⟩ ∧ (⟨1, 2⟩ : Cx).mulAssignSelf = ⟨-3, 4⟩ ∧ (⟨5, 5⟩ : Cx).divAssign ⟨0, 0⟩ = none := by
  refine ⟨?_, ?_, ?_⟩
  · ext <;> norm_num [mul]
  · ext <;> norm_num [mulAssignSelf]
  · simp [divAssign, rdiv]

example : ∃ w, acosh (⟨2, 1⟩ : Cx) = some w ∧ Complex.cosh w.toC = ⟨2, 1⟩ ∧ 0 ≤ w.re := C82_acosh_partial ⟨2, 1⟩ (by norm_num)

example : (sPow 2 ⟨0, 1⟩).map toC = some ((2 : ℂ) ^ Complex.I) := by
  have := C82_scalar_power_partial 2 (by norm_num) ⟨0, 1⟩
  rw [this]; norm_num; congr 1

end Hila
