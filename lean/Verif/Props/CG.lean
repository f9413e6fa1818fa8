import Verif.Model.CG
import Mathlib.Analysis.InnerProductSpace.Orthonormal
import Mathlib.Analysis.InnerProductSpace.Basic
import Mathlib.Analysis.InnerProductSpace.PiL2
import Mathlib.LinearAlgebra.FiniteDimensional.Basic
import Mathlib.LinearAlgebra.Dimension.Finite
import Mathlib.Tactic.FieldSimp
import Mathlib.Tactic.Ring
import Mathlib.Tactic.Linarith
import Mathlib.Tactic.NormNum
import Mathlib.Tactic.Module

/-!
# C27: the conjugate gradient solver
-/

namespace Hila

section general

variable {K V : Type} [Field K] [LinearOrder K] [AddCommGroup V] [Module K V]

theorem cgLoop_residual (M D : V →ₗ[K] V) (sq : V → K) (target : K) (b : V) (fuel i : ℕ) (x r p : V) (rr : K)
    (hr : r = b - D (M x)) (y : V) (k : ℕ) (h : cgLoop M D sq target fuel i x r p rr = .done y k true) :
    sq (b - D (M y)) < target ∧ i ≤ k ∧ k < i + fuel := by
  induction fuel generalizing i x r p rr with
  | zero => simp [cgLoop] at h
  | succ fuel ih =>
    unfold cgLoop at h
    dsimp only at h
    split at h
    · cases h
    · have hr' : r - (rr / sq (M p)) • D (M p) = b - D (M (x + (rr / sq (M p)) • p)) := by
        rw [hr, map_add, map_smul, map_add, map_smul]
        abel
      split at h
      · rename_i hlt
        cases h
        rw [hr'] at hlt
        exact ⟨hlt, le_refl _, by omega⟩
      · split at h
        · cases h
        · obtain ⟨h1, h2, h3⟩ := ih (i + 1) _ _ _ _ hr' h
          exact ⟨h1, by omega, by omega⟩

/-- **C27 (stopping criterion).** If the solver leaves its loop before the iteration limit, the returned
vector satisfies `|b - M†M x|² < accuracy² |b|²`, for every linear operator, right-hand side, initial
guess and limit. -/
theorem C27_stopping_criterion (M D : V →ₗ[K] V) (sq : V → K) (accuracy : K) (maxiters : ℕ) (b x0 x : V)
    (k : ℕ) (h : cgApply M D sq accuracy maxiters b x0 = .done x k true) :
    sq (b - D (M x)) < accuracy ^ 2 * sq b ∧ k < maxiters := by
  obtain ⟨h1, _, h3⟩ := cgLoop_residual M D sq _ b maxiters 0 x0 _ _ _ rfl x k h
  exact ⟨by rw [pow_two]; exact h1, by omega⟩

/-- **C27 fails for an exact initial guess.** The first step divides zero by zero; the result is not a
vector of numbers. -/
theorem C27_exact_guess_undefined (M D : V →ₗ[K] V) (sq : V → K) (hsq : sq 0 = 0) (accuracy : K)
    (maxiters : ℕ) (hm : 0 < maxiters) (b x0 : V) (hx : D (M x0) = b) :
    cgApply M D sq accuracy maxiters b x0 = .undefined := by
  obtain ⟨m, rfl⟩ : ∃ m, maxiters = m + 1 := ⟨maxiters - 1, by omega⟩
  unfold cgApply cgLoop
  simp [hx, hsq]

/-- **C27 fails for a zero right-hand side.** The criterion is a strict inequality with zero, so the solver
never stops early: it divides by zero or uses all iterations. -/
theorem C27_zero_source (M D : V →ₗ[K] V) (sq : V → K) (hsq : ∀ v, 0 ≤ sq v) (h0 : sq 0 = 0) (accuracy : K)
    (maxiters : ℕ) (x0 x : V) (k : ℕ) : cgApply M D sq accuracy maxiters 0 x0 ≠ .done x k true := by
  intro h
  obtain ⟨h1, _⟩ := C27_stopping_criterion M D sq accuracy maxiters 0 x0 x k h
  rw [h0, mul_zero] at h1
  exact absurd h1 (not_lt.2 (hsq _))

end general

/-! ### Exact arithmetic: the solver stops after at most as many steps as there are components -/

section inner

variable {V : Type} [NormedAddCommGroup V] [InnerProductSpace ℝ V]

local notation "⟪" x ", " y "⟫" => inner ℝ x y

/-- The vectors of the iteration. -/
structure CGSequence (N : V → V) (r p : ℕ → V) (α β : ℕ → ℝ) : Prop where
  start : p 0 = r 0
  res : ∀ i, r (i + 1) = r i - α i • N (p i)
  dir : ∀ i, p (i + 1) = β i • p i + r (i + 1)
  step : ∀ i, α i = ⟪r i, r i⟫ / ⟪p i, N (p i)⟫
  ratio : ∀ i, β i = ⟪r (i + 1), r (i + 1)⟫ / ⟪r i, r i⟫

theorem cg_orthogonal (N : V →ₗ[ℝ] V) (hN : ∀ x y, ⟪N x, y⟫ = ⟪x, N y⟫) (hpos : ∀ x, x ≠ 0 → 0 < ⟪x, N x⟫)
    (r p : ℕ → V) (α β : ℕ → ℝ) (h : CGSequence N r p α β) (k : ℕ) (hr : ∀ i < k, r i ≠ 0) :
    (∀ i ≤ k, ⟪r i, p i⟫ = ⟪r i, r i⟫) ∧ (∀ i ≤ k, ∀ j < i, ⟪r i, p j⟫ = 0) ∧
    (∀ i ≤ k, ∀ j < i, ⟪r i, r j⟫ = 0) ∧ (∀ i ≤ k, ∀ j < i, ⟪p i, N (p j)⟫ = 0) := by
  induction k with
  | zero =>
    refine ⟨fun i hi => ?_, fun i hi j hj => ?_, fun i hi j hj => ?_, fun i hi j hj => ?_⟩
    · have : i = 0 := by omega
      subst this; rw [h.start]
    all_goals omega
  | succ k ih =>
    obtain ⟨ih1, ih2, ih3, ih4⟩ := ih (fun i hi => hr i (by omega))
    have rpos : ∀ i ≤ k, 0 < ⟪r i, r i⟫ := fun i hi => by
      have := hr i (by omega)
      exact real_inner_self_pos.2 this
    have ppos : ∀ i ≤ k, 0 < ⟪p i, N (p i)⟫ := by
      intro i hi
      apply hpos
      intro hp
      have h1 := ih1 i hi
      rw [hp, inner_zero_right] at h1
      exact absurd h1 (rpos i hi).ne
    have αpos : ∀ i ≤ k, 0 < α i := fun i hi => by
      rw [h.step]; exact div_pos (rpos i hi) (ppos i hi)
    -- (a) new residual against old directions
    have ha : ∀ j ≤ k, ⟪r (k + 1), p j⟫ = 0 := by
      intro j hj
      rw [h.res, inner_sub_left, inner_smul_left]
      simp only [conj_trivial]
      rcases Nat.lt_or_eq_of_le hj with hj | rfl
      · rw [ih2 k (le_refl _) j hj, hN, ih4 k (le_refl _) j hj, mul_zero, sub_zero]
      · rw [ih1 j (le_refl _), hN, h.step, div_mul_cancel₀ _ (ppos j (le_refl _)).ne', sub_self]
    -- (b) against old residuals
    have hb : ∀ j ≤ k, ⟪r (k + 1), r j⟫ = 0 := by
      intro j hj
      cases j with
      | zero => rw [← h.start]; exact ha 0 hj
      | succ j =>
        have e : r (j + 1) = p (j + 1) - β j • p j := by rw [h.dir]; abel
        rw [e, inner_sub_right, inner_smul_right, ha (j + 1) hj, ha j (by omega), mul_zero, sub_zero]
    -- (c)
    have hc : ⟪r (k + 1), p (k + 1)⟫ = ⟪r (k + 1), r (k + 1)⟫ := by
      rw [h.dir, inner_add_right, inner_smul_right, ha k (le_refl _), mul_zero, zero_add]
    -- images of the directions are differences of residuals
    have hNp : ∀ j ≤ k, ∀ v, α j * ⟪v, N (p j)⟫ = ⟪v, r j⟫ - ⟪v, r (j + 1)⟫ := by
      intro j hj v
      rw [h.res j, inner_sub_right, inner_smul_right]
      ring
    -- (d)
    have hd : ∀ j ≤ k, ⟪p (k + 1), N (p j)⟫ = 0 := by
      intro j hj
      have hα := (αpos j hj).ne'
      rcases Nat.lt_or_eq_of_le hj with hj' | rfl
      · have e := hNp j hj (r (k + 1))
        rw [hb j hj, hb (j + 1) (by omega), sub_zero] at e
        have e' := (mul_eq_zero.1 e).resolve_left hα
        rw [h.dir, inner_add_left, inner_smul_left]
        simp only [conj_trivial]
        rw [e', ih4 k (le_refl _) j hj', mul_zero, add_zero]
      · have e := hNp j (le_refl _) (r (j + 1))
        rw [hb j (le_refl _), zero_sub] at e
        have hpj := (ppos j (le_refl _)).ne'
        have hrj := (rpos j (le_refl _)).ne'
        rw [h.dir, inner_add_left, inner_smul_left]
        simp only [conj_trivial]
        have e2 : ⟪r (j + 1), N (p j)⟫ = -⟪r (j + 1), r (j + 1)⟫ / α j := by
          rw [eq_div_iff hα, mul_comm]; exact e
        rw [e2, h.ratio, h.step]
        field_simp
        ring
    refine ⟨fun i hi => ?_, fun i hi j hj => ?_, fun i hi j hj => ?_, fun i hi j hj => ?_⟩
    · rcases Nat.lt_or_eq_of_le hi with hi' | rfl
      · exact ih1 i (by omega)
      · exact hc
    · rcases Nat.lt_or_eq_of_le hi with hi' | rfl
      · exact ih2 i (by omega) j hj
      · exact ha j (by omega)
    · rcases Nat.lt_or_eq_of_le hi with hi' | rfl
      · exact ih3 i (by omega) j hj
      · exact hb j (by omega)
    · rcases Nat.lt_or_eq_of_le hi with hi' | rfl
      · exact ih4 i (by omega) j hj
      · exact hd j (by omega)

/-- Some residual among the first `dim + 1` vanishes. -/
theorem cg_residual_vanishes [FiniteDimensional ℝ V] (N : V →ₗ[ℝ] V) (hN : ∀ x y, ⟪N x, y⟫ = ⟪x, N y⟫)
    (hpos : ∀ x, x ≠ 0 → 0 < ⟪x, N x⟫) (r p : ℕ → V) (α β : ℕ → ℝ) (h : CGSequence N r p α β) :
    ∃ k ≤ Module.finrank ℝ V, r k = 0 := by
  by_contra hc
  have hne : ∀ k ≤ Module.finrank ℝ V, r k ≠ 0 := fun k hk h0 => hc ⟨k, hk, h0⟩
  obtain ⟨_, _, ho, _⟩ := cg_orthogonal N hN hpos r p α β h (Module.finrank ℝ V) (fun i hi => hne i hi.le)
  have hli : LinearIndependent ℝ (fun i : Fin (Module.finrank ℝ V + 1) => r i) := by
    apply linearIndependent_of_ne_zero_of_inner_eq_zero (𝕜 := ℝ)
    · intro i; exact hne i (by omega)
    · intro i j hij
      rcases Nat.lt_or_gt_of_ne (fun h => hij (Fin.ext h) : (i : ℕ) ≠ j) with h1 | h1
      · rw [real_inner_comm]; exact ho j (by omega) i h1
      · exact ho i (by omega) j h1
  have := hli.fintype_card_le_finrank
  rw [Fintype.card_fin] at this
  omega

/-- The sequence of vectors computed by the loop, without stopping. -/
noncomputable def cgVectors (M D : V →ₗ[ℝ] V) (r0 x0 : V) : ℕ → V × V × V
  | 0 => (x0, r0, r0)
  | i + 1 =>
    let (x, r, p) := cgVectors M D r0 x0 i
    let α := ⟪r, r⟫ / ⟪M p, M p⟫
    let r' := r - α • D (M p)
    (x + α • p, r', (⟪r', r'⟫ / ⟪r, r⟫) • p + r')

/-- **C27 (termination).** In exact arithmetic, with `D` the adjoint of an injective `M` on a space of `d`
real components, a right-hand side and an accuracy that are not zero, an initial guess that is not exact and
a limit of at least `d`, the solver stops through its criterion after at most `d` steps. Missing
(`_partial`) for the property: exact guesses and zero right-hand sides, see `C27_exact_guess_undefined` and
`C27_zero_source`. -/
theorem C27_terminates_partial [FiniteDimensional ℝ V] (M D : V →ₗ[ℝ] V) (hadj : ∀ x y, ⟪M x, y⟫ = ⟪x, D y⟫)
    (hinj : Function.Injective M) (accuracy : ℝ) (hacc : accuracy ≠ 0) (maxiters : ℕ)
    (hmax : Module.finrank ℝ V ≤ maxiters) (b x0 : V) (hb : b ≠ 0) (hx0 : D (M x0) ≠ b) :
    ∃ x k, cgApply M D (fun v => ⟪v, v⟫) accuracy maxiters b x0 = .done x k true ∧
      k < Module.finrank ℝ V ∧ ‖b - D (M x)‖ < |accuracy| * ‖b‖ := by
  let r0 := b - D (M x0)
  let r : ℕ → V := fun i => (cgVectors M D r0 x0 i).2.1
  let p : ℕ → V := fun i => (cgVectors M D r0 x0 i).2.2
  let xs : ℕ → V := fun i => (cgVectors M D r0 x0 i).1
  let α : ℕ → ℝ := fun i => ⟪r i, r i⟫ / ⟪M (p i), M (p i)⟫
  have hNN : ∀ x, ⟪M x, M x⟫ = ⟪x, D (M x)⟫ := fun x => hadj x (M x)
  have hseq : CGSequence (D ∘ₗ M) r p α (fun i => ⟪r (i + 1), r (i + 1)⟫ / ⟪r i, r i⟫) := by
    refine ⟨rfl, fun i => rfl, fun i => rfl, fun i => ?_, fun i => rfl⟩
    simp only [α, hNN, LinearMap.comp_apply]
  have hN : ∀ x y, ⟪(D ∘ₗ M) x, y⟫ = ⟪x, (D ∘ₗ M) y⟫ := by
    intro x y
    simp only [LinearMap.comp_apply]
    rw [← hadj, real_inner_comm, ← hadj, real_inner_comm]
  have Mne : ∀ x, x ≠ 0 → M x ≠ 0 := fun x hx h0 => hx (hinj (by rw [h0, map_zero]))
  have hpos : ∀ x, x ≠ 0 → 0 < ⟪x, (D ∘ₗ M) x⟫ := by
    intro x hx
    simp only [LinearMap.comp_apply]
    rw [← hNN]
    exact real_inner_self_pos.2 (Mne x hx)
  classical
  have hex := cg_residual_vanishes (D ∘ₗ M) hN hpos r p α _ hseq
  have hex' : ∃ k, r k = 0 := ⟨hex.choose, hex.choose_spec.2⟩
  let k := Nat.find hex'
  have hk0 : r k = 0 := Nat.find_spec hex'
  have hkmin : ∀ i < k, r i ≠ 0 := fun i hi => Nat.find_min hex' hi
  have hkd : k ≤ Module.finrank ℝ V := (Nat.find_min' hex' hex.choose_spec.2).trans hex.choose_spec.1
  have hr0 : r 0 ≠ 0 := fun h0 => hx0 (sub_eq_zero.1 h0).symm
  have hk1 : 0 < k := by
    rcases Nat.eq_zero_or_pos k with h | h
    · rw [h] at hk0; exact absurd hk0 hr0
    · exact h
  have htarget : 0 < accuracy * accuracy * ⟪b, b⟫ :=
    mul_pos (mul_self_pos.2 hacc) (real_inner_self_pos.2 hb)
  have hMp : ∀ i < k, ⟪M (p i), M (p i)⟫ ≠ 0 := by
    intro i hi
    obtain ⟨h1, _, _, _⟩ := cg_orthogonal (D ∘ₗ M) hN hpos r p α _ hseq k hkmin
    have hp : p i ≠ 0 := by
      intro hp
      have := h1 i hi.le
      rw [hp, inner_zero_right] at this
      exact absurd this.symm (real_inner_self_pos.2 (hkmin i hi)).ne'
    exact (real_inner_self_pos.2 (Mne _ hp)).ne'
  have hloop : ∀ n i fuel, i + n + 1 = k → n + 1 ≤ fuel →
      ∃ x j, cgLoop M D (fun v => ⟪v, v⟫) (accuracy * accuracy * ⟪b, b⟫) fuel i (xs i) (r i) (p i) ⟪r i, r i⟫ =
        .done x j true ∧ j < k := by
    intro n
    induction n with
    | zero =>
      intro i fuel hi hf
      obtain ⟨f, rfl⟩ : ∃ f, fuel = f + 1 := ⟨fuel - 1, by omega⟩
      unfold cgLoop
      dsimp only
      rw [if_neg (hMp i (by omega))]
      have hz : r i - (⟪r i, r i⟫ / ⟪M (p i), M (p i)⟫) • D (M (p i)) = 0 := by
        have : r (i + 1) = r k := by rw [← hi]
        rw [hk0] at this
        exact this
      rw [hz, inner_zero_left, if_pos htarget]
      exact ⟨_, i, rfl, by omega⟩
    | succ n ih =>
      intro i fuel hi hf
      obtain ⟨f, rfl⟩ : ∃ f, fuel = f + 1 := ⟨fuel - 1, by omega⟩
      unfold cgLoop
      dsimp only
      rw [if_neg (hMp i (by omega))]
      split
      · exact ⟨_, i, rfl, by omega⟩
      · rw [if_neg (real_inner_self_pos.2 (hkmin i (by omega))).ne']
        exact ih (i + 1) f (by omega) (by omega)
  obtain ⟨x, j, h, hj⟩ := hloop (k - 1) 0 maxiters (by omega) (by omega)
  have happ : cgApply M D (fun v => ⟪v, v⟫) accuracy maxiters b x0 = .done x j true := h
  refine ⟨x, j, happ, by omega, ?_⟩
  obtain ⟨hc, _⟩ := C27_stopping_criterion M D _ accuracy maxiters b x0 x j happ
  rw [real_inner_self_eq_norm_sq, real_inner_self_eq_norm_sq, ← sq_abs accuracy, ← mul_pow] at hc
  exact lt_of_pow_lt_pow_left₀ 2 (by positivity) hc

end inner

/-! ### Concrete cases -/

/-- One component, operator "times two": the first step finds the solution 1 of 4 x = 4. -/
example : cgApply (K := ℚ) (V := ℚ) (fun x => 2 * x) (fun x => 2 * x) (fun x => x * x) (1 / 10) 5 4 0 =
    .done 1 0 true := by
  norm_num [cgApply, cgLoop]

/-- The same problem with the solution as initial guess. -/
example : cgApply (K := ℚ) (V := ℚ) (fun x => 2 * x) (fun x => 2 * x) (fun x => x * x) (1 / 10) 5 4 1 =
    .undefined := by
  norm_num [cgApply, cgLoop]

/-- The hypotheses of the termination theorem: three components, operator "times two". -/
example (b x0 : EuclideanSpace ℝ (Fin 3)) (hb : b ≠ 0)
    (hx0 : (2 : ℝ) • (2 : ℝ) • x0 ≠ b) :
    ∃ x k, cgApply (((2 : ℝ) • LinearMap.id : EuclideanSpace ℝ (Fin 3) →ₗ[ℝ] EuclideanSpace ℝ (Fin 3)))
      ((2 : ℝ) • LinearMap.id : EuclideanSpace ℝ (Fin 3) →ₗ[ℝ] EuclideanSpace ℝ (Fin 3))
      (fun v => inner ℝ v v) (1 / 1000) 10000 b x0 = .done x k true ∧ k < 3 := by
  have hd : Module.finrank ℝ (EuclideanSpace ℝ (Fin 3)) = 3 := by simp
  obtain ⟨x, k, h, hk, _⟩ := C27_terminates_partial
    ((2 : ℝ) • LinearMap.id : EuclideanSpace ℝ (Fin 3) →ₗ[ℝ] EuclideanSpace ℝ (Fin 3))
    ((2 : ℝ) • LinearMap.id : EuclideanSpace ℝ (Fin 3) →ₗ[ℝ] EuclideanSpace ℝ (Fin 3))
    (fun x y => by simp [inner_smul_left, inner_smul_right])
    (fun x y hxy => by
      have : (2 : ℝ) • x = (2 : ℝ) • y := hxy
      exact smul_right_injective _ (two_ne_zero) this)
    (1 / 1000) (by norm_num) 10000 (by rw [hd]; norm_num) b x0 hb hx0
  exact ⟨x, k, h, by rw [hd] at hk; exact hk⟩

end Hila
