import Verif.Model.MaxStaple
import Verif.Lemmas.OverHit
import Verif.Lemmas.Metropolis
import Verif.Lemmas.GaugeChain

/-!
# Lemmas for the rotations of sun_max_staple_sum_rot.h
-/

namespace Hila

open MeasureTheory Matrix
open scoped ENNReal

variable {N : ℕ}

theorem maxHit_eq (A B : Mat N) (pq : Fin N × Fin N) (hpq : pq.1 ≠ pq.2) :
    maxHit (A, B) pq = if hitLength A pq = 0 then none else
      some ((embSU pq (toSU (subVec A pq))).1 * A, (embSU pq (toSU (subVec A pq))).1 * B) := by
  have hk : Real.sqrt (0.5 * ((A pq.1 pq.1).re + (A pq.2 pq.2).re) * (0.5 * ((A pq.1 pq.1).re + (A pq.2 pq.2).re)) +
      0.5 * ((A pq.1 pq.2).im + (A pq.2 pq.1).im) * (0.5 * ((A pq.1 pq.2).im + (A pq.2 pq.1).im)) +
      0.5 * ((A pq.1 pq.2).re - (A pq.2 pq.1).re) * (0.5 * ((A pq.1 pq.2).re - (A pq.2 pq.1).re)) +
      0.5 * ((A pq.1 pq.1).im - (A pq.2 pq.2).im) * (0.5 * ((A pq.1 pq.1).im - (A pq.2 pq.2).im))) = hitLength A pq * 0.5 := by
    have h0 : 0 ≤ hitLength A pq := Real.sqrt_nonneg _
    rw [← Real.sqrt_sq (by positivity : 0 ≤ hitLength A pq * 0.5)]
    congr 1
    unfold hitLength
    rw [mul_pow, Real.sq_sqrt (by positivity)]
    ring
  unfold maxHit
  dsimp only
  rw [hk]
  by_cases hz : hitLength A pq = 0
  · rw [if_pos hz, if_pos (by rw [hz, zero_mul])]
  · have hz2 : hitLength A pq * 0.5 ≠ 0 := by
      intro h; apply hz; linarith
    rw [if_neg hz, if_neg hz2]
    have hM : !![(⟨0.5 * ((A pq.1 pq.1).re + (A pq.2 pq.2).re) * (1 / (hitLength A pq * 0.5)), -(0.5 * ((A pq.1 pq.1).im - (A pq.2 pq.2).im) * (1 / (hitLength A pq * 0.5)))⟩ : ℂ),
        ⟨-(0.5 * ((A pq.1 pq.2).re - (A pq.2 pq.1).re) * (1 / (hitLength A pq * 0.5))), -(0.5 * ((A pq.1 pq.2).im + (A pq.2 pq.1).im) * (1 / (hitLength A pq * 0.5)))⟩;
        ⟨0.5 * ((A pq.1 pq.2).re - (A pq.2 pq.1).re) * (1 / (hitLength A pq * 0.5)), -(0.5 * ((A pq.1 pq.2).im + (A pq.2 pq.1).im) * (1 / (hitLength A pq * 0.5)))⟩,
        ⟨0.5 * ((A pq.1 pq.1).re + (A pq.2 pq.2).re) * (1 / (hitLength A pq * 0.5)), 0.5 * ((A pq.1 pq.1).im - (A pq.2 pq.2).im) * (1 / (hitLength A pq * 0.5))⟩] =
        (toSU (subVec A pq)).1 := by
      rw [toSU_sub hz]
      unfold SU2.toMatrix SU2.div qOf subVec
      generalize hitLength A pq = z at *
      ext i j
      fin_cases i <;> fin_cases j <;> apply Complex.ext <;> simp <;> field_simp <;> ring
    rw [hM, multBy2x2Left_eq _ _ _ hpq, multBy2x2Left_eq _ _ _ hpq, embSU_val hpq]

theorem halfTr_le (g : SUN 2) : halfTr g ≤ 1 := by
  obtain ⟨x, hx, _⟩ := C28_group.2.1 g.1 g.2
  have hdet : x.det = 1 := (C28_group.1 x).1 (by rw [hx]; exact g.2)
  unfold halfTr
  rw [← hx]
  simp only [SU2.toMatrix, Matrix.trace_fin_two, Matrix.of_apply, Matrix.cons_val', Matrix.cons_val_zero, Matrix.cons_val_one, Complex.add_re, Matrix.cons_val_fin_one]
  unfold SU2.det at hdet
  nlinarith [sq_nonneg x.a, sq_nonneg x.b, sq_nonneg x.c, sq_nonneg (x.d - 1)]

theorem halfTr_one : halfTr 1 = 1 := by
  unfold halfTr
  show (1 : Matrix (Fin 2) (Fin 2) ℂ).trace.re / 2 = 1
  rw [Matrix.trace_one]
  norm_num

/-- A hit reaches the largest trace that its subgroup can reach. -/
theorem hit_max (A : Mat N) (pq : Fin N × Fin N) (hpq : pq.1 ≠ pq.2) (hz : hitLength A pq ≠ 0) (g : SUN 2) :
    ((embSU pq g).1 * A).trace.re ≤ ((embSU pq (toSU (subVec A pq))).1 * A).trace.re := by
  have h1 := hit_re_trace A pq hpq hz 1
  have h2 := hit_re_trace A pq hpq hz (g * (toSU (subVec A pq))⁻¹)
  rw [one_mul, halfTr_one] at h1
  rw [inv_mul_cancel_right] at h2
  rw [h1, h2]
  have h0 : 0 ≤ hitLength A pq := Real.sqrt_nonneg _
  nlinarith [halfTr_le (g * (toSU (subVec A pq))⁻¹)]

theorem embSU_one (pq : Fin N × Fin N) : embSU pq 1 = 1 := by
  by_cases hpq : pq.1 ≠ pq.2
  · have h := embSU_mul hpq 1 1
    rw [one_mul] at h
    exact left_eq_mul.1 h
  · unfold embSU
    rw [dif_neg hpq]

/-- What all hits keep: `tl0 = U * staple`, the matrix `U` is in the group and the trace has not become smaller. -/
def MaxInv (S : Mat N) (s : Mat N × Mat N) : Prop := s.2 ∈ SUN N ∧ s.1 = s.2 * S ∧ S.trace.re ≤ s.1.trace.re

theorem maxHit_inv (S : Mat N) (s s' : Mat N × Mat N) (pq : Fin N × Fin N) (hpq : pq.1 ≠ pq.2) (hs : MaxInv S s) (h : maxHit s pq = some s') :
    MaxInv S s' ∧ ∀ g : SUN 2, ((embSU pq g).1 * s'.1).trace.re ≤ s'.1.trace.re := by
  obtain ⟨A, B⟩ := s
  obtain ⟨h1, h2, h3⟩ := hs
  rw [maxHit_eq A B pq hpq] at h
  by_cases hz : hitLength A pq = 0
  · rw [if_pos hz] at h; cases h
  rw [if_neg hz] at h
  obtain rfl := Option.some.inj h
  refine ⟨⟨mul_mem (embSU pq _).2 h1, ?_, ?_⟩, fun g => ?_⟩
  · show _ * A = _ * B * S
    rw [Matrix.mul_assoc]
    exact congrArg _ h2
  · refine h3.trans ?_
    have := hit_max A pq hpq hz 1
    rw [embSU_one] at this
    simpa using this
  · have := hit_max A pq hpq hz (g * toSU (subVec A pq))
    rw [embSU_mul hpq] at this
    show (_ * (_ * A)).trace.re ≤ _
    rw [← Matrix.mul_assoc]
    exact this

theorem maxHits_inv (S : Mat N) (l : List (Fin N × Fin N)) (hl : ∀ pq ∈ l, pq.1 ≠ pq.2) (s s' : Mat N × Mat N) (hs : MaxInv S s)
    (h : l.foldlM maxHit s = some s') :
    MaxInv S s' ∧ ∀ pq, l.getLast? = some pq → ∀ g : SUN 2, ((embSU pq g).1 * s'.1).trace.re ≤ s'.1.trace.re := by
  induction l generalizing s with
  | nil =>
    obtain rfl := Option.some.inj h
    exact ⟨hs, fun pq hp => by simp at hp⟩
  | cons a l ih =>
    rw [List.foldlM_cons] at h
    obtain ⟨t, h1, h2⟩ := Option.bind_eq_some_iff.1 h
    have h3 := maxHit_inv S s t a (hl a List.mem_cons_self) hs h1
    have h4 := ih (fun pq hp => hl pq (List.mem_cons_of_mem _ hp)) t h3.1 h2
    refine ⟨h4.1, fun pq hp => ?_⟩
    cases l with
    | nil =>
      simp only [List.getLast?_singleton, Option.some.injEq] at hp
      subst hp
      obtain rfl := Option.some.inj h2
      exact h3.2
    | cons b l =>
      rw [List.getLast?_cons_cons] at hp
      exact h4.2 pq hp

theorem maxIter_inv [NeZero N] (eps : ℝ) (S : Mat N) (l : List (Fin N × Fin N)) (hl : ∀ pq ∈ l, pq.1 ≠ pq.2) (k : ℕ) (s s' : Mat N × Mat N)
    (hs : MaxInv S s) (h : maxIter eps l k s = some s') :
    MaxInv S s' ∧ (0 < k → ∀ pq, l.getLast? = some pq → ∀ g : SUN 2, ((embSU pq g).1 * s'.1).trace.re ≤ s'.1.trace.re) := by
  induction k generalizing s with
  | zero =>
    obtain rfl := Option.some.inj h
    exact ⟨hs, fun h => absurd h (lt_irrefl 0)⟩
  | succ k ih =>
    rw [maxIter] at h
    obtain ⟨t, h1, h2⟩ := Option.bind_eq_some_iff.1 h
    have h3 := maxHits_inv S l hl s t hs h1
    by_cases hd : maxDone eps t.1
    · rw [if_pos hd] at h2
      obtain rfl := Option.some.inj h2
      exact ⟨h3.1, fun _ => h3.2⟩
    · rw [if_neg hd] at h2
      have h4 := ih t h3.1 h2
      refine ⟨h4.1, fun _ => ?_⟩
      rcases Nat.eq_zero_or_pos k with rfl | hk
      · obtain rfl := Option.some.inj h2
        exact h3.2
      · exact h4.2 hk

theorem orderPairs_ne {α : Type} (l : List α) (hl : l.Nodup) : ∀ pq ∈ orderPairs l, pq.1 ≠ pq.2 := by
  induction l with
  | nil => intro pq h; simp [orderPairs] at h
  | cons a l ih =>
    intro pq h
    rw [orderPairs, List.mem_append] at h
    rcases h with h | h
    · obtain ⟨b, hb, rfl⟩ := List.mem_map.1 h
      exact fun e => (List.nodup_cons.1 hl).1 (by rw [show a = b from e]; exact hb)
    · exact ih (List.nodup_cons.1 hl).2 pq h

theorem orderPairs_length {α : Type} (l : List α) : (orderPairs l).length = l.length * (l.length - 1) / 2 := by
  induction l with
  | nil => simp [orderPairs]
  | cons a l ih =>
    rw [orderPairs, List.length_append, List.length_map, ih, List.length_cons, Nat.add_sub_cancel]
    rcases Nat.eq_zero_or_pos l.length with h | h
    · rw [h]
    · obtain ⟨m, hm⟩ := Nat.exists_eq_succ_of_ne_zero h.ne'
      rw [hm, Nat.succ_sub_one]
      have e : (m.succ + 1) * m.succ = m.succ * m + m.succ * 2 := by rw [Nat.succ_eq_add_one]; ring
      rw [e, Nat.add_mul_div_right _ _ (by norm_num)]
      omega

/-! ### Streams -/

/-- What depends on the first `k` numbers is independent of the rest. -/
theorem stream_after (k : ℕ) (H : (ℕ → ℝ) → (ℕ → ℝ) → ℝ≥0∞) (hH : Measurable fun p : (ℕ → ℝ) × (ℕ → ℝ) => H p.1 p.2)
    (hk : ∀ u v w, (∀ i < k, u i = v i) → H u w = H v w) :
    ∫⁻ u, H u (shiftBy k u) ∂uniformStream = ∫⁻ u, ∫⁻ v, H u v ∂uniformStream ∂uniformStream := by
  induction k generalizing H with
  | zero =>
    have e : ∀ u v, H u v = H (fun _ => 0) v := fun u v => hk u _ v (fun i hi => absurd hi (Nat.not_lt_zero i))
    have e1 : ∀ u, H u (shiftBy 0 u) = H (fun _ => 0) u := fun u => by rw [shiftBy_zero]; exact e u u
    simp only [e1]
    calc _ = ∫⁻ _u : ℕ → ℝ, ∫⁻ v, H (fun _ => 0) v ∂uniformStream ∂uniformStream := by rw [lintegral_const, measure_univ, mul_one]
      _ = _ := lintegral_congr fun u => lintegral_congr fun v => (e u v).symm
  | succ k ih =>
    have hc : MeasurePreserving (fun p : ℝ × (ℕ → ℝ) => consS p.1 p.2) (unif01.prod uniformStream) uniformStream := ⟨consS_measurable, consS_law⟩
    have hs : Measurable fun u : ℕ → ℝ => H u (shiftBy (k + 1) u) := hH.comp (measurable_id.prodMk (shiftBy_measurable (k + 1)))
    have hr : Measurable fun u : ℕ → ℝ => ∫⁻ v, H u v ∂uniformStream := hH.lintegral_prod_right'
    rw [← hc.lintegral_comp hs, ← hc.lintegral_comp hr]
    have hs2 : Measurable fun p : ℝ × (ℕ → ℝ) => H (consS p.1 p.2) (shiftBy (k + 1) (consS p.1 p.2)) := hs.comp consS_measurable
    have hr2 : Measurable fun p : ℝ × (ℕ → ℝ) => ∫⁻ v, H (consS p.1 p.2) v ∂uniformStream := hr.comp consS_measurable
    rw [lintegral_prod _ hs2.aemeasurable, lintegral_prod _ hr2.aemeasurable]
    refine lintegral_congr fun x => ?_
    have e : ∀ u, shiftBy (k + 1) (consS x u) = shiftBy k u := fun u => by
      rw [Nat.add_comm, ← shiftBy_shiftBy, shiftBy_consS]
    simp only [e]
    refine ih (fun u v => H (consS x u) v) ?_ fun u v w huv => hk _ _ _ fun i hi => ?_
    · exact hH.comp ((consS_measurable.comp (measurable_const.prodMk measurable_fst)).prodMk measurable_snd)
    · cases i with
      | zero => rfl
      | succ j => exact huv j (by omega)

theorem shuffledIdx_congr (N : ℕ) (u v : ℕ → ℝ) (h : ∀ i < N - 1, u i = v i) : shuffledIdx N u = shuffledIdx N v := by
  unfold shuffledIdx shuffle
  refine shuffleLoop_congr _ _ _ (fun i h1 h2 => ?_) _
  rw [List.length_finRange] at h2
  rw [h (N - 1 - i) (by omega)]

theorem shuffledIdx_measurable (N : ℕ) : Measurable[_, ⊤] (shuffledIdx N) := by
  let := (⊤ : MeasurableSpace (Option (List (Fin N))))
  have e : shuffledIdx N = (fun c : Fin N → ℕ => shuffle (fun j => if h : j < N then c ⟨j, h⟩ else 0) (List.finRange N)) ∘
      fun u j => ⌊((j.1 : ℝ) + 1) * u (N - 1 - j.1)⌋₊ := by
    funext u
    unfold shuffledIdx shuffle
    refine shuffleLoop_congr _ _ _ (fun i h1 h2 => ?_) _
    rw [List.length_finRange] at h2
    have h3 : i < N := by omega
    simp only [dif_pos h3]
  rw [e]
  refine Measurable.comp (measurable_of_countable _) (measurable_pi_lambda _ fun j => ?_)
  exact Nat.measurable_floor.comp ((measurable_pi_apply _).const_mul _)

/-! ### Reflections -/

theorem twist_preserving (haar : Measure (SUN N)) [IsProbabilityMeasure haar] [haar.IsMulLeftInvariant] (Z : SUN N) :
    MeasurePreserving (fun U : SUN N => Z * U⁻¹ * Z) haar haar := by
  have h1 : MeasurePreserving (fun U : SUN N => U⁻¹) haar haar := ⟨continuous_inv.measurable, invariant_inv haar⟩
  have h2 : MeasurePreserving (fun U : SUN N => Z * U) haar haar := measurePreserving_mul_left haar Z
  have h3 : MeasurePreserving (fun U : SUN N => U * Z) haar haar := ⟨(continuous_mul_const Z).measurable, invariant_right haar Z⟩
  exact h3.comp (h2.comp h1)

theorem twist_twist (Z U : SUN N) : Z * (Z * U⁻¹ * Z)⁻¹ * Z = U := by group

theorem linkAct_measurable (b : ℝ) (S : Mat N) : Measurable fun U : SUN N => -(b * (U.1 * Sᴴ).trace.re) := by
  have h := (continuous_subtype_val : Continuous fun h : SUN N => h.1)
  have h2 : Continuous fun U : SUN N => (U.1 * Sᴴ).trace := (h.mul continuous_const).matrix_trace
  have h3 : Continuous fun U : SUN N => -(b * (U.1 * Sᴴ).trace.re) := by fun_prop
  exact h3.measurable

/-- The reflection with a test keeps the weights. -/
theorem twist_keeps (haar : Measure (SUN N)) [IsProbabilityMeasure haar] [haar.IsMulLeftInvariant] (b : ℝ) (S : Mat N) (Z : SUN N) (f : SUN N → ℝ≥0∞) (hf : Measurable f) :
    ∫⁻ U, ∫⁻ r, (if r < Real.exp (b * ((((Z * U⁻¹ * Z).1 - U.1) * Sᴴ).trace.re)) then f (Z * U⁻¹ * Z) else f U) ∂unif01
        ∂(boltzmann haar fun U => -(b * (U.1 * Sᴴ).trace.re)) =
      ∫⁻ U, f U ∂(boltzmann haar fun U => -(b * (U.1 * Sᴴ).trace.re)) := by
  have hH := linkAct_measurable b S
  have hm := metropolis_lintegral haar (twist_preserving haar Z) (twist_twist Z) hH hf
  unfold boltzmann
  have hR : Measurable fun U : SUN N => Z * U⁻¹ * Z := (twist_preserving haar Z).measurable
  have hd : Measurable fun U : SUN N => b * ((((Z * U⁻¹ * Z).1 - U.1) * Sᴴ).trace.re) := by
    have : (fun U : SUN N => b * ((((Z * U⁻¹ * Z).1 - U.1) * Sᴴ).trace.re)) = fun U : SUN N =>
        -(b * (U.1 * Sᴴ).trace.re) - -(b * ((Z * U⁻¹ * Z).1 * Sᴴ).trace.re) := by
      funext U
      rw [Matrix.sub_mul, Matrix.trace_sub, Complex.sub_re]
      ring
    rw [this]
    exact hH.sub (hH.comp hR)
  have hI : Measurable fun p : SUN N × ℝ => (if p.2 < Real.exp (b * ((((Z * p.1⁻¹ * Z).1 - p.1.1) * Sᴴ).trace.re)) then f (Z * p.1⁻¹ * Z) else f p.1) :=
    Measurable.ite (measurableSet_lt measurable_snd (hd.comp measurable_fst).exp) ((hf.comp hR).comp measurable_fst) (hf.comp measurable_fst)
  have hI2 : Measurable fun U : SUN N => ∫⁻ r, (if r < Real.exp (b * ((((Z * U⁻¹ * Z).1 - U.1) * Sᴴ).trace.re)) then f (Z * U⁻¹ * Z) else f U) ∂unif01 :=
    hI.lintegral_prod_right'
  have hW : Measurable fun U : SUN N => ENNReal.ofReal (Real.exp (-(-(b * (U.1 * Sᴴ).trace.re)))) := hH.neg.exp.ennreal_ofReal
  refine (lintegral_withDensity_eq_lintegral_mul _ hW hI2).trans (Eq.trans ?_ (lintegral_withDensity_eq_lintegral_mul _ hW hf).symm)
  simp only [Pi.mul_apply]
  refine Eq.trans (lintegral_congr fun U => ?_) hm
  unfold unif01
  have e : b * ((((Z * U⁻¹ * Z).1 - U.1) * Sᴴ).trace.re) = -(-(b * ((Z * U⁻¹ * Z).1 * Sᴴ).trace.re) - -(b * (U.1 * Sᴴ).trace.re)) := by
    rw [Matrix.sub_mul, Matrix.trace_sub, Complex.sub_re]
    ring
  rw [e]

end Hila
