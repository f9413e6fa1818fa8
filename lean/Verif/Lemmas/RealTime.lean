import Verif.Model.RealTime
import Verif.Lemmas.GradFlowInt

/-!
# Evolution in real time: lemmas
-/

namespace Hila

open Matrix

variable {n : ℕ} {L : Fin n → ℕ} {N : ℕ}

/-- What `update_E` subtracts, without the factor. -/
noncomputable def rtForce (U : GField L N) : AlgField L N := fun d x =>
  project (U d x * (stapleSpec (fun _ _ => 1) U d x)ᴴ)

/-- `update_E` as a function. -/
noncomputable def rtKick (delta : ℝ) (s : RtState L N) : RtState L N :=
  ⟨s.U, fun d x => s.E d x - delta • rtForce s.U d x⟩

theorem rtUpdateE_eq [∀ d, NeZero (L d)] (hn : 2 ≤ n) (delta : ℝ) (s : RtState L N) :
    rtUpdateE delta s = some (rtKick delta s) := by
  unfold rtUpdateE rtKick rtForce
  rw [allSome_some (F := fun d x => s.E d x - delta • project (s.U d x * (stapleSpec (fun _ _ => 1) s.U d x)ᴴ))]
  · rfl
  · intro d x
    rw [((C33_staplesum hn s.U (fun _ => none) d (fun _ _ _ => 1) .all (.inl rfl) x).1 trivial).1]
    rfl

/-- The loops as functions. -/
noncomputable def rtRun (ex : Alg N → Mat N) (dt : ℝ) (k : ℕ) (s : RtState L N) : RtState L N :=
  rtUpdateU ex (dt / 2) (rtKick dt ((fun s => rtUpdateU ex dt (rtKick dt s))^[k] (rtUpdateU ex (dt / 2) s)))

theorem rtSteps_eq [∀ d, NeZero (L d)] (hn : 2 ≤ n) (ex : Alg N → Mat N) (dt : ℝ) :
    ∀ (k : ℕ) (s : RtState L N), rtSteps ex dt k s = some ((fun s => rtUpdateU ex dt (rtKick dt s))^[k] s) := by
  intro k
  induction k with
  | zero => intro s; rfl
  | succ k ih =>
    intro s
    rw [rtSteps, rtUpdateE_eq hn, Option.bind_some, ih, Function.iterate_succ_apply]

theorem rtLeap_eq [∀ d, NeZero (L d)] (hn : 2 ≤ n) (ex : Alg N → Mat N) (dt : ℝ) (m : ℤ) (s : RtState L N) :
    rtLeap ex dt m s = some (rtRun ex dt (m - 1).toNat s) := by
  rw [rtLeap, rtSteps_eq hn, Option.bind_some, rtUpdateE_eq hn]
  rfl

theorem rtTherm_eq [∀ d, NeZero (L d)] (hn : 2 ≤ n) (ex : Alg N → Mat N) (dt : ℝ) (s : RtState L N) :
    rtTherm ex dt s = some (rtRun ex dt (rtThermSteps dt) s) := by
  rw [rtTherm, rtSteps_eq hn, Option.bind_some, rtUpdateE_eq hn]
  rfl

/-- A property kept by both updates is kept by the evolution. -/
theorem rtRun_induct (ex : Alg N → Mat N) (P : RtState L N → Prop)
    (hU : ∀ c s, P s → P (rtUpdateU ex c s)) (hE : ∀ c s, P s → P (rtKick c s)) (dt : ℝ) (k : ℕ)
    (s : RtState L N) (h : P s) : P (rtRun ex dt k s) := by
  refine hU _ _ (hE _ _ ?_)
  have h0 := hU (dt / 2) s h
  generalize rtUpdateU ex (dt / 2) s = r at h0
  induction k generalizing r with
  | zero => exact h0
  | succ k ih =>
    rw [Function.iterate_succ_apply]
    exact ih _ (hU _ _ (hE _ _ h0))

/-! ### Gauss' law -/

theorem rightConj_sub (hN : 0 < N) (U : Mat N) (a b : Alg N) : rightConj U (a - b) = rightConj U a - rightConj U b := by
  rw [rightConj_eq, rightConj_eq, rightConj_eq, leftConj_sub hN]

theorem rightConj_smul (hN : 0 < N) (U : Mat N) (c : ℝ) (a : Alg N) : rightConj U (c • a) = c • rightConj U a := by
  rw [rightConj_eq, rightConj_eq, leftConj_smul hN]

theorem gauss_kick (hN : 0 < N) (U : GField L N) (E F : AlgField L N) (c : ℝ) (x : PSite L) :
    gaussViolation U (fun d x => E d x - c • F d x) x = gaussViolation U E x - c • gaussViolation U F x := by
  rw [gaussViolation_eq, gaussViolation_eq, gaussViolation_eq, Finset.smul_sum, ← Finset.sum_sub_distrib]
  refine Finset.sum_congr rfl fun d _ => ?_
  rw [rightConj_sub hN, rightConj_smul hN, smul_sub]
  abel

/-- Closed path around a plaquette. -/
def sq (d e : Fin n) (s t : Bool) : List (PStep n) := [(d, s), (e, t), (d, !s), (e, !t)]

theorem disp_sq (d e : Fin n) (s t : Bool) : disp (sq d e s t) = (0 : PSite L) := by
  cases s <;> cases t <;> simp only [sq, disp, stepVec, Bool.not_true, Bool.not_false, if_true, Bool.false_eq_true, if_false] <;> abel

theorem sq_rev (U : GField L N) (d e : Fin n) (s t : Bool) (x : PSite L) :
    pathM U (sq e d t s) x = (pathM U (sq d e s t) x)ᴴ := by
  have := C56_reverse U (sq d e s t) x
  rw [disp_sq, add_zero] at this
  rw [← this]
  simp [sq, PStep.opp]

theorem rterm_sq (U : GField L N) (d e : Fin n) (x : PSite L) :
    U d x * rterm U d e x = pathM U (sq d e true true) x + pathM U (sq d e true false) x := by
  unfold rterm
  simp only [sq, pathM, linkM, stepVec, Bool.not_true, Bool.not_false, if_true, Bool.false_eq_true, if_false, Matrix.mul_one,
    Matrix.mul_add, Matrix.mul_assoc]
  have e1 : x + Pi.single d 1 + Pi.single e 1 - Pi.single d 1 = x + Pi.single e 1 := by abel
  have e2 : x + Pi.single d 1 + Pi.single e 1 + -Pi.single d 1 - Pi.single e 1 = x := by abel
  have e3 : x + Pi.single d 1 - Pi.single e 1 = x - Pi.single e 1 + Pi.single d 1 := by abel
  have e4 : x + Pi.single d 1 + -Pi.single e 1 - Pi.single d 1 = x - Pi.single e 1 := by abel
  have e5 : x + Pi.single d 1 + -Pi.single e 1 + -Pi.single d 1 = x - Pi.single e 1 := by abel
  rw [e1, e2, e3, e4, e5]

/-- A path transported back along a link. -/
theorem sq_back {U : GField L N} (hU : IsUnitaryField U) (d e : Fin n) (t : Bool) (x : PSite L) :
    (U d (x - Pi.single d 1))ᴴ * pathM U (sq d e true t) (x - Pi.single d 1) * U d (x - Pi.single d 1) =
      pathM U (sq e d t false) x := by
  have c : x - Pi.single d 1 + Pi.single d 1 = x := by abel
  simp only [sq, pathM, Bool.not_true, Bool.not_false, Matrix.mul_one]
  have l1 : linkM U (d, true) (x - Pi.single d 1) = U d (x - Pi.single d 1) := rfl
  have s1 : (stepVec (d, true) : PSite L) = Pi.single d 1 := rfl
  have s2 : (stepVec (d, false) : PSite L) = -Pi.single d 1 := rfl
  have e1 : x + stepVec (e, t) + -Pi.single d 1 + stepVec (e, !t) = x - Pi.single d 1 := by
    cases t <;> simp only [stepVec, Bool.not_true, Bool.not_false, if_true, Bool.false_eq_true, if_false] <;> abel
  rw [s1, c, s2, e1, l1]
  simp only [← Matrix.mul_assoc]
  rw [hU.left, Matrix.one_mul]

theorem expandZero (hN : 0 < N) : expand (0 : Alg N) = 0 := by
  have h := expand_sub hN (0 : Alg N) 0
  rwa [sub_self, sub_self] at h

theorem algPart_sum {ι : Type} (s : Finset ι) (f : ι → Mat N) : algPart (∑ i ∈ s, f i) = ∑ i ∈ s, algPart (f i) := by
  classical
  refine Finset.induction_on s ?_ fun i s hi ih => ?_
  · rw [Finset.sum_empty, Finset.sum_empty]
    simp [algPart]
  · rw [Finset.sum_insert hi, Finset.sum_insert hi, algPart_add, ih]

/-- The force has no divergence. -/
theorem gauss_force (hN : 0 < N) {U : GField L N} (hU : IsUnitaryField U) (x : PSite L) :
    gaussViolation U (rtForce U) x = 0 := by
  refine expand_inj hN ?_
  rw [C59_divergence hN hU, expandZero hN]
  have hterm : ∀ d, expand (rtForce U d x) - (U d (x - Pi.single d 1))ᴴ * expand (rtForce U d (x - Pi.single d 1)) * U d (x - Pi.single d 1) =
      ∑ e ∈ Finset.univ.erase d, (algPart (pathM U (sq d e true true) x) + algPart (pathM U (sq d e true false) x) -
        (algPart (pathM U (sq e d true false) x) + algPart (pathM U (sq e d false false) x))) := by
    intro d
    unfold rtForce
    rw [expand_project hN, expand_project hN, ← algPart_rot _ _ (hU.right _ _), stapleSpec_star, stapleSpec_star]
    simp only [Finset.mul_sum, Finset.sum_mul]
    rw [algPart_sum, algPart_sum, ← Finset.sum_sub_distrib]
    refine Finset.sum_congr rfl fun e _ => ?_
    rw [rterm_sq, rterm_sq, Matrix.mul_add, Matrix.add_mul, sq_back hU, sq_back hU, algPart_add, algPart_add]
  rw [Finset.sum_congr rfl fun d _ => hterm d]
  have hsw : ∀ f : Fin n → Fin n → Mat N, ∑ d, ∑ e ∈ Finset.univ.erase d, f d e = ∑ d, ∑ e ∈ Finset.univ.erase d, f e d := by
    intro f
    rw [Finset.sum_comm' (t' := Finset.univ) (s' := fun e => Finset.univ.erase e)]
    intro a b
    simp [ne_comm]
  have h2 : ∀ M : Mat N, M + M = 0 → M = 0 := by
    intro M h
    ext i j
    have := congrFun (congrFun h i) j
    simp only [Matrix.add_apply, Matrix.zero_apply] at this
    simpa using add_self_eq_zero.1 this
  refine h2 _ ?_
  nth_rw 2 [hsw]
  rw [← Finset.sum_add_distrib]
  refine Finset.sum_eq_zero fun d _ => ?_
  rw [← Finset.sum_add_distrib]
  refine Finset.sum_eq_zero fun e _ => ?_
  rw [sq_rev U d e true true, sq_rev U d e false false, algPart_star, algPart_star]
  abel

theorem expand_comm_exp (hN : 0 < N) (c : ℝ) (a : Alg N) : expand a * expAlg (c • a) = expAlg (c • a) * expand a := by
  unfold expAlg
  have h : Commute (expand a) (expand (c • a)) := by
    rw [expand_smul hN]
    show _ * _ = _ * _
    rw [Matrix.mul_smul, Matrix.smul_mul]
  let : NormedRing (Mat N) := Matrix.linftyOpNormedRing
  let : NormedAlgebra ℚ (Mat N) := Matrix.linftyOpNormedAlgebra
  exact h.exp_right

theorem expAlg_unitary (hN : 0 < N) (a : Alg N) : expAlg a ∈ Matrix.unitaryGroup (Fin N) ℂ :=
  (Matrix.mem_specialUnitaryGroup_iff.1 (expAlg_mem hN a)).1

theorem gauss_drift (hN : 0 < N) (c : ℝ) (s : RtState L N) (x : PSite L) :
    gaussViolation (rtUpdateU expAlg c s).U s.E x = gaussViolation s.U s.E x := by
  rw [gaussViolation_eq, gaussViolation_eq]
  refine Finset.sum_congr rfl fun d _ => congrArg _ ?_
  unfold rightConj rtUpdateU
  generalize x - Pi.single d 1 = y
  have h : (expAlg (c • s.E d y))ᴴ * expAlg (c • s.E d y) = 1 := Matrix.mem_unitaryGroup_iff'.1 (expAlg_unitary hN _)
  refine congrArg project ?_
  rw [Matrix.conjTranspose_mul]
  calc (s.U d y)ᴴ * (expAlg (c • s.E d y))ᴴ * expand (s.E d y) * (expAlg (c • s.E d y) * s.U d y)
      = (s.U d y)ᴴ * ((expAlg (c • s.E d y))ᴴ * (expand (s.E d y) * expAlg (c • s.E d y))) * s.U d y := by
        simp only [Matrix.mul_assoc]
    _ = _ := by
        rw [expand_comm_exp hN, ← Matrix.mul_assoc (expAlg _)ᴴ, h, Matrix.one_mul]

theorem drift_unitary (hN : 0 < N) (c : ℝ) {s : RtState L N} (h : IsUnitaryField s.U) :
    IsUnitaryField (rtUpdateU expAlg c s).U := fun d x => mul_mem (expAlg_unitary hN _) (h d x)

theorem rtRun_gauss (hN : 0 < N) (dt : ℝ) (k : ℕ) (s : RtState L N) (h : IsUnitaryField s.U) :
    IsUnitaryField (rtRun expAlg dt k s).U ∧
      gaussViolation (rtRun expAlg dt k s).U (rtRun expAlg dt k s).E = gaussViolation s.U s.E := by
  refine rtRun_induct expAlg (fun r => IsUnitaryField r.U ∧ gaussViolation r.U r.E = gaussViolation s.U s.E)
    (fun c r hr => ⟨drift_unitary hN c hr.1, ?_⟩) (fun c r hr => ⟨hr.1, ?_⟩) dt k s ⟨h, rfl⟩
  · rw [← hr.2]
    funext x
    exact gauss_drift hN c r x
  · rw [← hr.2]
    funext x
    refine (gauss_kick hN r.U r.E (rtForce r.U) c x).trans ?_
    rw [gauss_force hN hr.1, smul_zero, sub_zero]

/-! ### Time reversal -/

/-- The electric field with opposite sign. -/
def rtFlip (s : RtState L N) : RtState L N := ⟨s.U, fun d x => -s.E d x⟩

theorem flip_drift (hN : 0 < N) (c : ℝ) (s : RtState L N) :
    rtUpdateU expAlg c (rtFlip (rtUpdateU expAlg c s)) = rtFlip s := by
  unfold rtUpdateU rtFlip
  congr 1
  funext d x
  dsimp only
  have h := expAlg_add_smul hN (-c) c (s.E d x)
  rw [neg_add_cancel, zero_smul, expAlg_zero hN] at h
  rw [smul_neg, ← neg_smul, ← Matrix.mul_assoc, ← h, Matrix.one_mul]

theorem flip_kick (c : ℝ) (s : RtState L N) : rtKick c (rtFlip (rtKick c s)) = rtFlip s := by
  unfold rtKick rtFlip
  congr 1
  funext d x
  dsimp only
  abel

theorem rtFlip_flip (s : RtState L N) : rtFlip (rtFlip s) = s := by
  unfold rtFlip
  simp

theorem flip_run (hN : 0 < N) (dt : ℝ) (k : ℕ) (s : RtState L N) :
    rtRun expAlg dt k (rtFlip (rtRun expAlg dt k s)) = rtFlip s := by
  have key : ∀ (k : ℕ) (r : RtState L N),
      rtKick dt ((fun s => rtUpdateU expAlg dt (rtKick dt s))^[k] (rtFlip (rtKick dt
        ((fun s => rtUpdateU expAlg dt (rtKick dt s))^[k] r)))) = rtFlip r := by
    intro k
    induction k with
    | zero => intro r; exact flip_kick dt r
    | succ k ih =>
      intro r
      rw [Function.iterate_succ_apply' _ k r, Function.iterate_succ_apply, flip_kick, flip_drift hN]
      exact ih r
  unfold rtRun
  rw [flip_drift hN, key, flip_drift hN]

/-! ### Gauge transformation -/

/-- Gauge transformation of both fields. -/
noncomputable def rtGauge (g : PSite L → Mat N) (s : RtState L N) : RtState L N := ⟨gaugeT g s.U, rotE g s.E⟩

theorem force_gauge (hN : 0 < N) (U : GField L N) {g : PSite L → Mat N} (hg : IsGauge g) (d : Fin n) (x : PSite L) :
    rtForce (gaugeT g U) d x = leftConj (g x) (rtForce U d x) := by
  refine expand_inj hN ?_
  unfold rtForce
  rw [(C50_conjugation hN (hg x) _ 0).1, expand_project hN, expand_project hN, (C33_staple U g hg _ d x).1]
  have e : gaugeT g U d x * (g x * stapleSpec (fun _ _ => 1) U d x * (g (x + Pi.single d 1))ᴴ)ᴴ =
      ((g x)ᴴ)ᴴ * (U d x * (stapleSpec (fun _ _ => 1) U d x)ᴴ) * (g x)ᴴ := by
    unfold gaugeT
    simp only [Matrix.conjTranspose_mul, Matrix.conjTranspose_conjTranspose, Matrix.mul_assoc, hg.cancel]
  rw [e, algPart_rot _ _ (by rw [Matrix.conjTranspose_conjTranspose]; exact hg.left x), Matrix.conjTranspose_conjTranspose]

theorem kick_gauge (hN : 0 < N) {g : PSite L → Mat N} (hg : IsGauge g) (c : ℝ) (s : RtState L N) :
    rtKick c (rtGauge g s) = rtGauge g (rtKick c s) := by
  unfold rtKick rtGauge
  congr 1
  funext d x
  show rotE g s.E d x - c • rtForce (gaugeT g s.U) d x = rotE g (fun d x => s.E d x - c • rtForce s.U d x) d x
  unfold rotE
  rw [force_gauge hN s.U hg, leftConj_sub hN, leftConj_smul hN]

theorem drift_gauge (hN : 0 < N) {g : PSite L → Mat N} (hg : IsGauge g) (c : ℝ) (s : RtState L N) :
    rtUpdateU expAlg c (rtGauge g s) = rtGauge g (rtUpdateU expAlg c s) := by
  unfold rtUpdateU rtGauge
  congr 1
  funext d x
  show expAlg (c • leftConj (g x) (s.E d x)) * gaugeT g s.U d x = gaugeT g (fun d x => expAlg (c • s.E d x) * s.U d x) d x
  unfold gaugeT
  rw [← leftConj_smul hN, expAlg_conj hN (hg x)]
  simp only [Matrix.mul_assoc, hg.cancel]

theorem run_gauge (hN : 0 < N) {g : PSite L → Mat N} (hg : IsGauge g) (dt : ℝ) (k : ℕ) (s : RtState L N) :
    rtRun expAlg dt k (rtGauge g s) = rtGauge g (rtRun expAlg dt k s) := by
  have key : ∀ (k : ℕ) (r : RtState L N), (fun s => rtUpdateU expAlg dt (rtKick dt s))^[k] (rtGauge g r) =
      rtGauge g ((fun s => rtUpdateU expAlg dt (rtKick dt s))^[k] r) := by
    intro k
    induction k with
    | zero => intro r; rfl
    | succ k ih =>
      intro r
      rw [Function.iterate_succ_apply, Function.iterate_succ_apply, kick_gauge hN hg, drift_gauge hN hg, ih]
  unfold rtRun
  rw [drift_gauge hN hg, key, kick_gauge hN hg, drift_gauge hN hg]

end Hila
