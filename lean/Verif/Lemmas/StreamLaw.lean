import Verif.Model.GaussSpec

/-!
# Programs that read a stream of uniform numbers from its start
-/

namespace Hila

open MeasureTheory
open scoped ENNReal

/-- The stream after its first `k` numbers. -/
def shiftBy (k : ℕ) (u : ℕ → ℝ) : ℕ → ℝ := fun i => u (k + i)

/-- A stream with one more number in front. -/
def consS (x : ℝ) (u : ℕ → ℝ) : ℕ → ℝ
  | 0 => x
  | i + 1 => u i

theorem shiftBy_shiftBy (k l : ℕ) (u : ℕ → ℝ) : shiftBy k (shiftBy l u) = shiftBy (l + k) u := by
  funext i; simp [shiftBy, Nat.add_assoc]

theorem shiftBy_zero (u : ℕ → ℝ) : shiftBy 0 u = u := by funext i; simp [shiftBy]

theorem shiftBy_consS (x : ℝ) (u : ℕ → ℝ) : shiftBy 1 (consS x u) = u := by
  funext i; simp [shiftBy, consS, Nat.add_comm 1 i]

theorem shiftBy_measurable (k : ℕ) : Measurable (shiftBy k) := by
  unfold shiftBy; fun_prop

theorem consS_measurable : Measurable fun p : ℝ × (ℕ → ℝ) => consS p.1 p.2 := by
  refine measurable_pi_lambda _ fun i => ?_
  cases i with
  | zero => exact measurable_fst
  | succ n => exact (measurable_pi_apply n).comp measurable_snd

theorem consS_law : (unif01.prod uniformStream).map (fun p => consS p.1 p.2) = uniformStream := by
  unfold uniformStream
  refine Measure.eq_infinitePi (fun _ => unif01) fun s t ht => ?_
  classical
  set n := s.sup id with hn
  set t' : ℕ → Set ℝ := fun i => if i ∈ s then t i else Set.univ with ht'
  have hm : ∀ i, MeasurableSet (t' i) := fun i => by
    simp only [ht']; split
    · exact ht i
    · exact MeasurableSet.univ
  have hsub : s ⊆ Finset.range (n + 1) := fun i hi => by
    rw [Finset.mem_range]; exact Nat.lt_succ_of_le (Finset.le_sup (f := id) hi)
  have e1 : Set.pi (s : Set ℕ) t = Set.pi (Finset.range (n + 1) : Set ℕ) t' := by
    ext u
    simp only [Set.mem_pi, Finset.mem_coe, ht']
    constructor
    · intro h i _
      split
      · exact h i ‹_›
      · trivial
    · intro h i hi
      have := h i (hsub hi)
      rwa [if_pos hi] at this
  have e2 : ∏ i ∈ s, unif01 (t i) = ∏ i ∈ Finset.range (n + 1), unif01 (t' i) := by
    rw [← Finset.prod_subset hsub]
    · exact Finset.prod_congr rfl fun i hi => by simp only [ht', if_pos hi]
    · intro i _ hi
      simp only [ht', if_neg hi, measure_univ]
  rw [e1, e2, Measure.map_apply consS_measurable (MeasurableSet.pi (Finset.countable_toSet _) fun i _ => hm i)]
  have e3 : (fun p : ℝ × (ℕ → ℝ) => consS p.1 p.2) ⁻¹' Set.pi (Finset.range (n + 1) : Set ℕ) t'
      = t' 0 ×ˢ Set.pi (Finset.range n : Set ℕ) fun i => t' (i + 1) := by
    ext ⟨x, u⟩
    simp only [Set.mem_preimage, Set.mem_pi, Finset.coe_range, Set.mem_Iio, Set.mem_prod]
    constructor
    · intro h
      exact ⟨h 0 (by omega), fun i hi => h (i + 1) (by omega)⟩
    · rintro ⟨h0, h1⟩ i hi
      cases i with
      | zero => exact h0
      | succ j => exact h1 j (by omega)
  rw [e3, Measure.prod_prod, Measure.infinitePi_pi (fun _ => unif01) (fun i _ => hm (i + 1)), Finset.prod_range_succ', mul_comm]

/-- The first number and the rest of the stream. -/
theorem stream_cons (F : (ℕ → ℝ) → ℝ≥0∞) (hF : Measurable F) :
    ∫⁻ u, F u ∂uniformStream = ∫⁻ x, ∫⁻ u, F (consS x u) ∂uniformStream ∂unif01 := by
  conv_lhs => rw [← consS_law]
  rw [lintegral_map hF consS_measurable]
  exact lintegral_prod _ (hF.comp consS_measurable).aemeasurable

/-- The value of `F` at the result of a program and the rest of the stream, zero if there is no result. -/
noncomputable def afterRun {α : Type} (F : α → (ℕ → ℝ) → ℝ≥0∞) (u : ℕ → ℝ) : Option (α × ℕ) → ℝ≥0∞
  | none => 0
  | some (a, k) => F a (shiftBy k u)

/-- A program with a parameter that reads the stream from its start, measurable in parameter and stream. -/
def StreamMeas {P α : Type} [MeasurableSpace P] [MeasurableSpace α] (prog : P → (ℕ → ℝ) → Option (α × ℕ)) : Prop :=
  ∀ F : P → α → (ℕ → ℝ) → ℝ≥0∞, Measurable (fun x : P × α × (ℕ → ℝ) => F x.1 x.2.1 x.2.2) →
    Measurable (fun x : P × (ℕ → ℝ) => afterRun (F x.1) x.2 (prog x.1 x.2))

/-- Where the program has a result, this has the distribution `μ` and the rest of the stream is again a stream of independent uniform numbers,
independent of the result. -/
def LawAt {α : Type} [MeasurableSpace α] (prog : (ℕ → ℝ) → Option (α × ℕ)) (μ : Measure α) : Prop :=
  ∀ F : α → (ℕ → ℝ) → ℝ≥0∞, Measurable (fun x : α × (ℕ → ℝ) => F x.1 x.2) →
    ∫⁻ u, afterRun F u (prog u) ∂uniformStream = ∫⁻ a, ∫⁻ u, F a u ∂uniformStream ∂μ

/-- One program after another. -/
def thenRun {α β : Type} (p : Option (α × ℕ)) (q : α → (ℕ → ℝ) → Option (β × ℕ)) (u : ℕ → ℝ) : Option (β × ℕ) :=
  match p with
  | none => none
  | some (a, k) =>
    match q a (shiftBy k u) with
    | none => none
    | some (b, l) => some (b, k + l)

theorem afterRun_then {α β : Type} (p : Option (α × ℕ)) (q : α → (ℕ → ℝ) → Option (β × ℕ)) (u : ℕ → ℝ) (F : β → (ℕ → ℝ) → ℝ≥0∞) :
    afterRun F u (thenRun p q u) = afterRun (fun a v => afterRun F v (q a v)) u p := by
  cases p with
  | none => rfl
  | some x =>
    obtain ⟨a, k⟩ := x
    simp only [thenRun, afterRun]
    cases h : q a (shiftBy k u) with
    | none => rfl
    | some y =>
      obtain ⟨b, l⟩ := y
      simp only [shiftBy_shiftBy]

theorem StreamMeas.after {P α β : Type} [MeasurableSpace P] [MeasurableSpace α] [MeasurableSpace β] {p : P → (ℕ → ℝ) → Option (α × ℕ)}
    {q : P → α → (ℕ → ℝ) → Option (β × ℕ)} (hp : StreamMeas p) (hq : StreamMeas fun x : P × α => q x.1 x.2) :
    StreamMeas fun x u => thenRun (p x u) (q x) u := by
  intro F hF
  simp only [afterRun_then]
  refine hp (fun x a v => afterRun (F x) v (q x a v)) ?_
  have h := hq (fun x => F x.1) (hF.comp ((measurable_fst.comp measurable_fst).prodMk measurable_snd))
  exact h.comp (g := fun x : (P × α) × (ℕ → ℝ) => afterRun (F x.1.1) x.2 (q x.1.1 x.1.2 x.2)) (f := fun x : P × α × (ℕ → ℝ) => ((x.1, x.2.1), x.2.2)) (by fun_prop)

theorem StreamMeas.value {P β : Type} [MeasurableSpace P] [MeasurableSpace β] (k : ℕ) (g : P → (ℕ → ℝ) → β)
    (hg : Measurable fun x : P × (ℕ → ℝ) => g x.1 x.2) : StreamMeas fun x u => some (g x u, k) := by
  intro F hF
  exact hF.comp (measurable_fst.prodMk (hg.prodMk ((shiftBy_measurable k).comp measurable_snd)))

theorem StreamMeas.guard {P β : Type} [MeasurableSpace P] [MeasurableSpace β] {p : P → (ℕ → ℝ) → Option (β × ℕ)} (hp : StreamMeas p)
    (c : P → Prop) [DecidablePred c] (hc : MeasurableSet {x | c x}) : StreamMeas fun x u => if c x then none else p x u := by
  intro F hF
  have e : (fun x : P × (ℕ → ℝ) => afterRun (F x.1) x.2 (if c x.1 then none else p x.1 x.2)) =
      fun x : P × (ℕ → ℝ) => if c x.1 then 0 else afterRun (F x.1) x.2 (p x.1 x.2) := by
    funext x
    split <;> rfl
  rw [e]
  exact Measurable.ite (hc.preimage measurable_fst) measurable_const (hp F hF)

theorem LawAt.mass_le {α : Type} [MeasurableSpace α] {prog : (ℕ → ℝ) → Option (α × ℕ)} {μ : Measure α} (h : LawAt prog μ) : μ Set.univ ≤ 1 := by
  have h1 := h (fun _ _ => 1) measurable_const
  simp only [lintegral_one, measure_univ] at h1
  rw [← h1]
  calc ∫⁻ u, afterRun (fun _ _ => 1) u (prog u) ∂uniformStream ≤ ∫⁻ _, 1 ∂uniformStream := by
        refine lintegral_mono fun u => ?_
        cases prog u with
        | none => exact bot_le
        | some x => exact le_refl _
    _ = 1 := by simp

/-- One trial: `m` numbers are read; if it is accepted its value has the distribution `W` times `κ`; it is rejected with probability `q`. -/
structure TrialLaw (m : ℕ) (Acc : (ℕ → ℝ) → Prop) [DecidablePred Acc] (val : (ℕ → ℝ) → ℝ) (κ q : ℝ≥0∞) (W : Measure ℝ) : Prop where
  accept : ∀ F : ℝ → (ℕ → ℝ) → ℝ≥0∞, Measurable (fun x : ℝ × (ℕ → ℝ) => F x.1 x.2) →
    ∫⁻ u, (if Acc u then F (val u) (shiftBy m u) else 0) ∂uniformStream = κ * ∫⁻ a, ∫⁻ u, F a u ∂uniformStream ∂W
  reject : ∀ G : (ℕ → ℝ) → ℝ≥0∞, Measurable G →
    ∫⁻ u, (if Acc u then 0 else G (shiftBy m u)) ∂uniformStream = q * ∫⁻ u, G u ∂uniformStream

/-- Trials until one is accepted, at most `n`. -/
def tryLoop (m : ℕ) (Acc : (ℕ → ℝ) → Prop) [DecidablePred Acc] (val : (ℕ → ℝ) → ℝ) : ℕ → (ℕ → ℝ) → Option (ℝ × ℕ)
  | 0, _ => none
  | n + 1, u => if Acc u then some (val u, m) else (tryLoop m Acc val n (shiftBy m u)).map fun x => (x.1, m + x.2)

theorem afterRun_map_add {α : Type} (F : α → (ℕ → ℝ) → ℝ≥0∞) (u : ℕ → ℝ) (m : ℕ) (x : Option (α × ℕ)) :
    afterRun F u (x.map fun x => (x.1, m + x.2)) = afterRun F (shiftBy m u) x := by
  cases x with
  | none => rfl
  | some y =>
    obtain ⟨a, k⟩ := y
    simp only [Option.map_some, afterRun, shiftBy_shiftBy]

theorem afterRun_tryLoop (m : ℕ) (Acc : (ℕ → ℝ) → Prop) [DecidablePred Acc] (val : (ℕ → ℝ) → ℝ) (n : ℕ) (F : ℝ → (ℕ → ℝ) → ℝ≥0∞) (u : ℕ → ℝ) :
    afterRun F u (tryLoop m Acc val (n + 1) u) = (if Acc u then F (val u) (shiftBy m u) else 0) +
      (if Acc u then 0 else afterRun F (shiftBy m u) (tryLoop m Acc val n (shiftBy m u))) := by
  rw [show tryLoop m Acc val (n + 1) u = if Acc u then some (val u, m) else (tryLoop m Acc val n (shiftBy m u)).map fun x => (x.1, m + x.2) from rfl]
  split
  · simp only [afterRun, add_zero]
  · rw [afterRun_map_add, zero_add]

theorem tryLoop_meas {P : Type} [MeasurableSpace P] (m : ℕ) (Acc : P → (ℕ → ℝ) → Prop) [∀ p, DecidablePred (Acc p)] (val : P → (ℕ → ℝ) → ℝ)
    (hA : MeasurableSet {x : P × (ℕ → ℝ) | Acc x.1 x.2}) (hv : Measurable fun x : P × (ℕ → ℝ) => val x.1 x.2) (n : ℕ) :
    StreamMeas fun p u => tryLoop m (Acc p) (val p) n u := by
  induction n with
  | zero => intro F _; exact measurable_const
  | succ n ih =>
    intro F hF
    simp only [afterRun_tryLoop]
    have hs : Measurable fun x : P × (ℕ → ℝ) => shiftBy m x.2 := (shiftBy_measurable m).comp measurable_snd
    refine Measurable.add (Measurable.ite hA ?_ measurable_const) (Measurable.ite hA measurable_const ?_)
    · exact hF.comp (measurable_fst.prodMk (hv.prodMk hs))
    · exact (ih F hF).comp (measurable_fst.prodMk hs)

theorem tryLoop_law {m : ℕ} {Acc : (ℕ → ℝ) → Prop} [DecidablePred Acc] {val : (ℕ → ℝ) → ℝ} {κ q : ℝ≥0∞} {W : Measure ℝ}
    (h : TrialLaw m Acc val κ q W) (hA : MeasurableSet {u | Acc u}) (hv : Measurable val) (n : ℕ) :
    LawAt (tryLoop m Acc val n) ((κ * ∑ j ∈ Finset.range n, q ^ j) • W) := by
  induction n with
  | zero => intro F _; simp [tryLoop, afterRun]
  | succ n ih =>
    intro F hF
    have hm : Measurable fun u => afterRun F u (tryLoop m Acc val n u) := by
      have := tryLoop_meas (P := Unit) m (fun _ => Acc) (fun _ => val)
        (hA.preimage measurable_snd) (hv.comp measurable_snd) n (fun _ => F) (hF.comp measurable_snd)
      exact this.comp (measurable_const (a := ()) |>.prodMk measurable_id)
    simp only [afterRun_tryLoop]
    have hm2 : Measurable fun u => if Acc u then F (val u) (shiftBy m u) else 0 :=
      Measurable.ite hA (hF.comp (hv.prodMk (shiftBy_measurable m))) measurable_const
    rw [lintegral_add_left hm2, h.accept F hF, h.reject _ hm, ih F hF,
      lintegral_smul_measure, lintegral_smul_measure, Finset.sum_range_succ', pow_zero, smul_eq_mul, smul_eq_mul]
    have : ∑ k ∈ Finset.range n, q ^ (k + 1) = q * ∑ k ∈ Finset.range n, q ^ k := by
      rw [Finset.mul_sum]
      exact Finset.sum_congr rfl fun k _ => by rw [pow_succ, mul_comm]
    rw [this]
    ring

/-- One number and the rest of the stream. -/
theorem stream_one (G : ℝ → (ℕ → ℝ) → ℝ≥0∞) (hG : Measurable fun x : ℝ × (ℕ → ℝ) => G x.1 x.2) :
    ∫⁻ u, G (u 0) (shiftBy 1 u) ∂uniformStream = ∫⁻ x, ∫⁻ u, G x u ∂uniformStream ∂unif01 := by
  have hm : Measurable fun u : ℕ → ℝ => G (u 0) (shiftBy 1 u) := hG.comp ((measurable_pi_apply 0).prodMk (shiftBy_measurable 1))
  rw [stream_cons _ hm]
  refine lintegral_congr fun x => lintegral_congr fun u => ?_
  rw [shiftBy_consS]; rfl

/-- Two numbers and the rest of the stream. -/
theorem stream_two (F : ℝ → ℝ → (ℕ → ℝ) → ℝ≥0∞) (hF : Measurable fun x : ℝ × ℝ × (ℕ → ℝ) => F x.1 x.2.1 x.2.2) :
    ∫⁻ u, F (u 0) (u 1) (shiftBy 2 u) ∂uniformStream = ∫⁻ x0, ∫⁻ x1, ∫⁻ u, F x0 x1 u ∂uniformStream ∂unif01 ∂unif01 := by
  have h := stream_one (fun x v => F x (v 0) (shiftBy 1 v)) (hF.comp (measurable_fst.prodMk
    (((measurable_pi_apply 0).comp measurable_snd).prodMk ((shiftBy_measurable 1).comp measurable_snd))))
  simp only [shiftBy_shiftBy] at h
  refine Eq.trans h ?_
  refine lintegral_congr fun x => ?_
  exact stream_one (fun y v => F x y v) (hF.comp (measurable_const.prodMk measurable_id))

/-- Four numbers and the rest of the stream. -/
theorem stream_four (F : ℝ → ℝ → ℝ → ℝ → (ℕ → ℝ) → ℝ≥0∞) (hF : Measurable fun x : ℝ × ℝ × ℝ × ℝ × (ℕ → ℝ) => F x.1 x.2.1 x.2.2.1 x.2.2.2.1 x.2.2.2.2) :
    ∫⁻ u, F (u 0) (u 1) (u 2) (u 3) (shiftBy 4 u) ∂uniformStream =
      ∫⁻ x0, ∫⁻ x1, ∫⁻ x2, ∫⁻ x3, ∫⁻ u, F x0 x1 x2 x3 u ∂uniformStream ∂unif01 ∂unif01 ∂unif01 ∂unif01 := by
  have h := stream_two (fun x y v => F x y (v 0) (v 1) (shiftBy 2 v)) (hF.comp (measurable_fst.prodMk ((measurable_fst.comp measurable_snd).prodMk
    (((measurable_pi_apply 0).comp (measurable_snd.comp measurable_snd)).prodMk (((measurable_pi_apply 1).comp (measurable_snd.comp measurable_snd)).prodMk
      ((shiftBy_measurable 2).comp (measurable_snd.comp measurable_snd)))))))
  simp only [shiftBy_shiftBy] at h
  refine Eq.trans h ?_
  refine lintegral_congr fun x => lintegral_congr fun y => ?_
  exact stream_two (fun z w v => F x y z w v) (hF.comp (measurable_const.prodMk (measurable_const.prodMk measurable_id)))

end Hila
