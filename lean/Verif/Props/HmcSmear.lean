import Verif.Lemmas.HmcSmear
import Verif.Props.Gauge

/-!
# C108: smeared gauge fields of the HMC library

Property theorems about `Model/HmcSmear`.
-/

namespace Hila

open Matrix

variable {n : ℕ} {L : Fin n → ℕ} {k : ℕ} {L4 : Fin 4 → ℕ}

/-! ## The force -/

/-- **C108, the force of stout smearing.** Let the links move along any differentiable curve `U(t)` with the derivative `A` at `t = 0`. Then the
smeared links are differentiable, and a derivative `F` with respect to the smeared links is turned by `add_momentum` into the derivative with respect
to the links: the rate of change of any function with the gradient `F` is the same whether it is computed from the smeared links or from the links.
For every number of smearing steps, every coefficient, every truncation of the exponential, every lattice and every dimension. -/
theorem C108_stout_force [∀ d, NeZero (L d)] (steps : ℕ) (c : ℝ) (m : ℕ) (F : GField L (k + 1)) (U : ℝ → GField L (k + 1)) (A : GField L (k + 1))
    (hU : ∀ d x, MDeriv (fun t => U t d x) (A d x)) :
    ∃ V : GField L (k + 1), (∀ d x, MDeriv (fun t => hmcStout steps c m (U t) d x) (V d x)) ∧
      ∑ d, ∑ x, (F d x * V d x).trace.re = ∑ d, ∑ x, (hmcStoutForce steps c (U 0) m F d x * A d x).trace.re :=
  hmcStout_pull steps c hU m F

/-- Every field moves along such a curve: a straight line in any direction `A`. -/
example (U A : GField L (k + 1)) : ∀ d x, MDeriv (fun t => (fun (t : ℝ) d x => U d x + (t : ℂ) • A d x) t d x) (A d x) := by
  intro d x i j
  have h : HasDerivAt (fun t : ℝ => (t : ℂ) * A d x i j) (1 * A d x i j) 0 := by
    simpa using (Complex.ofRealCLM.hasDerivAt (x := (0 : ℝ))).mul_const (A d x i j)
  rw [one_mul] at h
  simpa using h.const_add (U d x i j)

/-- **C108, the force of HEX smearing**: the same, whatever is in the fields that are never set. -/
theorem C108_hex_force [∀ d, NeZero (L4 d)] (h : Hex L4 k) (F : GField L4 (k + 1)) (U : ℝ → GField L4 (k + 1)) (A : GField L4 (k + 1))
    (hU : ∀ d x, MDeriv (fun t => U t d x) (A d x)) :
    ∃ V : GField L4 (k + 1), (∀ d x, MDeriv (fun t => hexSmear h (U t) d x) (V d x)) ∧
      ∑ d, ∑ x, (F d x * V d x).trace.re = ∑ d, ∑ x, (hexForce h (U 0) F d x * A d x).trace.re :=
  hexSmear_pull h F hU

theorem stapleFieldSum_congr {τ : Type*} (f g : τ → PSite L → Mat (k + 1)) (l : List τ) (h : ∀ t ∈ l, f t = g t) (s : PSite L → Mat (k + 1)) :
    stapleFieldSum l f s = stapleFieldSum l g s := by
  unfold stapleFieldSum
  apply List.foldl_ext
  intro a b hb
  rw [h b hb]

/-- **C108, the hypercube.** The directions of HEX smearing: for two directions `mu` and `nu` the staples of the second level run over the two others,
once each, and the third level over the one that remains. The links of the second level labelled by `nu` do not depend on links in the direction `nu`,
and those of the third level labelled by `nu` only on links in the directions `nu` and `mu`: this restricts the smearing to hypercubes. -/
theorem C108_hex_local (h : Hex L4 k) (U U' : GField L4 (k + 1)) (mu nu rho : Fin 4) (hne : nu ≠ mu) :
    ((rho ∈ hexRho mu nu ↔ rho ≠ mu ∧ rho ≠ nu) ∧ (hexRho mu nu).Nodup ∧
      (rho ∈ hexRho mu nu → fourthDir mu nu rho ≠ mu ∧ fourthDir mu nu rho ≠ nu ∧ fourthDir mu nu rho ≠ rho)) ∧
    (U mu = U' mu → U nu = U' nu → hexLevel3 h U (nu, mu) = hexLevel3 h U' (nu, mu)) ∧
    ((∀ d, d ≠ nu → U d = U' d) → hexLevel2 h U (nu, mu) = hexLevel2 h U' (nu, mu)) := by
  have hdir : ∀ mu nu rho : Fin 4, nu ≠ mu → (rho ∈ hexRho mu nu ↔ rho ≠ mu ∧ rho ≠ nu) ∧ (hexRho mu nu).Nodup ∧
      (rho ∈ hexRho mu nu → fourthDir mu nu rho ≠ mu ∧ fourthDir mu nu rho ≠ nu ∧ fourthDir mu nu rho ≠ rho) := by decide
  have h3 : ∀ a b : Fin 4, U b = U' b → U a = U' a → hexLevel3 h U (a, b) = hexLevel3 h U' (a, b) := by
    intro a b hb ha
    unfold hexLevel3 hexStaples3
    dsimp only
    rw [ha, hb]
  refine ⟨hdir mu nu rho hne, h3 nu mu, fun hU => ?_⟩
  unfold hexLevel2
  dsimp only
  rw [if_neg hne, if_neg hne]
  have hs : hexStaples2 h U (nu, mu) = hexStaples2 h U' (nu, mu) := by
    unfold hexStaples2
    dsimp only
    apply stapleFieldSum_congr
    intro r hr
    have hd := hdir mu nu r hne
    have e := (hd.2.2 hr).2.1
    have hrn := (hd.1.1 hr).2
    rw [h3 _ mu (hU mu hne.symm) (hU _ e), h3 _ r (hU r hrn) (hU _ e)]
  rw [hs, hU mu hne.symm]

/-- **C108, the momentum.** If the links move with the velocity `P U`, `P` traceless and antihermitean (as in `gauge_update`), the change of the
momentum by `add_momentum` of the base field pairs with `P` to the rate of change of the function with the gradient `F`; and that change is
traceless and antihermitean. -/
theorem C108_momentum [∀ d, NeZero (L d)] (U F mom P : GField L (k + 1)) (hP : ∀ d x, (P d x)ᴴ = -P d x ∧ (P d x).trace = 0) :
    (∑ d, ∑ x, ((baseAddMomentum U F mom d x - mom d x) * P d x).trace.re = ∑ d, ∑ x, (F d x * (P d x * U d x)).trace.re) ∧
    ∀ d x, (baseAddMomentum U F mom d x - mom d x)ᴴ = -(baseAddMomentum U F mom d x - mom d x) ∧
      (baseAddMomentum U F mom d x - mom d x).trace = 0 := by
  have e : ∀ d x, baseAddMomentum U F mom d x - mom d x = antiProj (U d x * F d x) := by
    intro d x
    simp [baseAddMomentum]
  refine ⟨?_, fun d x => ?_⟩
  · refine Finset.sum_congr rfl fun d _ => Finset.sum_congr rfl fun x _ => ?_
    rw [e, antiProj_self, antiProj_alg (hP d x).1 (hP d x).2, mul_assoc, trace_mul_comm, mul_assoc]
  · rw [e]
    exact ⟨antiProj_star _, antiProj_trace _⟩

/-- A velocity as required. -/
example : ∃ P : GField ![4, 4] 2, (∀ d x, (P d x)ᴴ = -P d x ∧ (P d x).trace = 0) ∧ P 0 0 ≠ 0 := by
  refine ⟨fun _ _ => !![Complex.I, 0; 0, -Complex.I], fun d x => ⟨?_, by simp [trace_fin_two]⟩, fun h => ?_⟩
  · ext i j
    fin_cases i <;> fin_cases j <;> simp [conjTranspose_apply]
  · have := congrFun (congrFun h 0) 0
    simp at this

/-! ## Gauge transformations -/

/-- **C108, transformed links.** What one step of stout smearing does to transformed links: the exponential, which belongs to the site `x`, is
multiplied at the site `x + d`. -/
theorem C108_transform (steps : ℕ) (c : ℝ) (g : PSite L → Mat (k + 1)) (hg : IsGauge g) (U : GField L (k + 1)) (d : Fin n)
    (x : PSite L) :
    ∃ E : Mat (k + 1), hmcStout steps c 1 U d x = U d x * E ∧
      hmcStout steps c 1 (gaugeT g U) d x = g x * U d x * (g (x + Pi.single d 1))ᴴ * (g x * E * (g x)ᴴ) ∧
      ∃ E' : Mat (k + 1), E' * gaugeT g U d x = g x * (E * U d x) * (g (x + Pi.single d 1))ᴴ ∧
        hmcStout steps c 1 (gaugeT g U) d x = gaugeT g U d x * E' := by
  refine ⟨_, rfl, ?_⟩
  have hs := smear_exp_gauge steps c g hg U d x
  have h1 : hmcStout steps c 1 (gaugeT g U) d x = gaugeT g U d x *
      matExp (𝕜 := ℂ) (k := k) steps (antiProj (((-c : ℝ) : ℂ) • (gaugeT g U d x * stapleAll (gaugeT g U) d x))) := rfl
  rw [hs] at h1
  refine ⟨h1, _, ?_, h1⟩
  have hl : ∀ M : Mat (k + 1), (g x)ᴴ * (g x * M) = M := fun M => by rw [← mul_assoc, hg.left, one_mul]
  unfold gaugeT
  simp only [mul_assoc, hl]
  rfl

/-- **C108, rotations of all links (part of the property).** If all sites are transformed by the same matrix the smeared links are the smeared links of
the original field, transformed. *Missing*: this for transformations that depend on the site — it is false, see `C108_gauge_wrong`. -/
theorem C108_gauge_partial (steps : ℕ) (c : ℝ) (v : Mat (k + 1)) (hv : v ∈ unitaryGroup (Fin (k + 1)) ℂ) (m : ℕ)
    (U : GField L (k + 1)) : hmcStout steps c m (gaugeT (fun _ => v) U) = gaugeT (fun _ => v) (hmcStout steps c m U) := by
  induction m with
  | zero => rfl
  | succ m ih =>
    have hg : IsGauge (L := L) fun _ => v := fun _ => hv
    have hl : ∀ M : Mat (k + 1), vᴴ * (v * M) = M := fun M => by rw [← mul_assoc, hg.left 0, one_mul]
    funext d x
    unfold hmcStout
    rw [ih]
    generalize hmcStout steps c m U = W
    unfold hmcStoutStep smearLink
    rw [smear_exp_gauge steps c _ hg W d x]
    unfold gaugeT
    simp only [mul_assoc, hl]

/-- The two links of the witness. -/
def sW : Mat 2 := !![Complex.I, 0; 0, -Complex.I]

/-- See `sW`. -/
def sB : Mat 2 := !![0, 1; -1, 0]

/-- The links of the witness on a `2 x 1` lattice. -/
def sU : GField ![2, 1] 2 := fun d x => if d = 0 then 1 else if x 0 = 0 then sB else sW

/-- The transformation of the witness: `sW` on the second site. -/
def sG : PSite ![2, 1] → Mat 2 := fun x => if x 0 = 0 then 1 else sW

theorem sW_unitary : sW ∈ unitaryGroup (Fin 2) ℂ := by
  rw [mem_unitaryGroup_iff]
  ext i j
  fin_cases i <;> fin_cases j <;> simp [sW, Matrix.mul_apply, Fin.sum_univ_two, star_apply]

theorem sB_unitary : sB ∈ unitaryGroup (Fin 2) ℂ := by
  rw [mem_unitaryGroup_iff]
  ext i j
  fin_cases i <;> fin_cases j <;> simp [sB, Matrix.mul_apply, Fin.sum_univ_two, star_apply]

theorem sW_star : sWᴴ = !![-Complex.I, 0; 0, Complex.I] := by
  ext i j
  fin_cases i <;> fin_cases j <;> simp [sW, conjTranspose_apply]

theorem sB_star : sBᴴ = !![0, -1; 1, 0] := by
  ext i j
  fin_cases i <;> fin_cases j <;> simp [sB, conjTranspose_apply]

theorem sU_staple : stapleAll sU 0 0 = !![0, -2 * Complex.I; -2 * Complex.I, 0] := by
  have h0 : (List.finRange 2).filter (fun e => decide (e ≠ (0 : Fin 2))) = [1] := by decide
  have h1 : sU 1 (0 + unitStep 0) = sW := by
    have : ((0 + unitStep 0 : PSite ![2, 1]) 0) ≠ 0 := by decide
    unfold sU
    rw [if_neg (by decide), if_neg this]
  have h2 : sU 1 0 = sB := by
    have : ((0 : PSite ![2, 1]) 0) = 0 := rfl
    unfold sU
    rw [if_neg (by decide), if_pos this]
  have h3 : sU 1 (0 - unitStep 1 + unitStep 0) = sW := by
    have : ((0 - unitStep 1 + unitStep 0 : PSite ![2, 1]) 0) ≠ 0 := by decide
    unfold sU
    rw [if_neg (by decide), if_neg this]
  have h4 : sU 1 (0 - unitStep 1) = sB := by
    have : ((0 - unitStep 1 : PSite ![2, 1]) 0) = 0 := by decide
    unfold sU
    rw [if_neg (by decide), if_pos this]
  have h5 : ∀ x, sU 0 x = 1 := fun _ => rfl
  rw [zero_add] at h1
  have key : sW * sBᴴ + sWᴴ * sB = !![0, -2 * Complex.I; -2 * Complex.I, 0] := by
    rw [sW_star, sB_star]
    unfold sW sB
    ext i j
    fin_cases i <;> fin_cases j <;> simp <;> ring
  unfold stapleAll stapleFieldSum
  rw [h0]
  simp only [List.foldl_cons, List.foldl_nil, staple2, h1, h2, h3, h4, h5, conjTranspose_one, mul_one, zero_add]
  exact key

/-- **C108 fails for gauge transformations.** The smeared links of a transformed field are not the transformed smeared links: `refresh` multiplies the
exponential, which is an object at the site of the link, from the right instead of the left. -/
theorem C108_gauge_wrong : IsGauge sG ∧ (∀ d x, sU d x ∈ specialUnitaryGroup (Fin 2) ℂ) ∧
    hmcStout (L := ![2, 1]) 1 1 1 (gaugeT sG sU) ≠ gaugeT sG (hmcStout 1 1 1 sU) := by
  have hg : IsGauge sG := by
    intro x
    unfold sG
    split
    · exact one_mem _
    · exact sW_unitary
  refine ⟨hg, fun d x => ?_, fun h => ?_⟩
  · unfold sU
    split
    · exact one_mem _
    · split
      · exact mem_specialUnitaryGroup_iff.2 ⟨sB_unitary, by simp [sB, det_fin_two]⟩
      · exact mem_specialUnitaryGroup_iff.2 ⟨sW_unitary, by simp [sW, det_fin_two]⟩
  · have hU : sU 0 0 = 1 := rfl
    have hQ : antiProj (((-1 : ℝ) : ℂ) • (sU 0 0 * stapleAll sU 0 0)) = !![0, 2 * Complex.I; 2 * Complex.I, 0] := by
      rw [hU, one_mul, sU_staple]
      have : ((-1 : ℝ) : ℂ) • (!![0, -2 * Complex.I; -2 * Complex.I, 0] : Mat 2) = !![0, 2 * Complex.I; 2 * Complex.I, 0] := by
        ext i j
        fin_cases i <;> fin_cases j <;> simp
      rw [this]
      apply antiProj_alg
      · ext i j
        fin_cases i <;> fin_cases j <;> simp [conjTranspose_apply]
      · simp [trace_fin_two]
    have hs := smear_exp_gauge (k := 1) 1 1 sG hg sU 0 0
    rw [hQ, Nat.cast_one] at hs
    have h1 := congrFun (congrFun h 0) 0
    have e0 : sG 0 = 1 := if_pos rfl
    have e1 : sG (0 + Pi.single 0 1) = sW := if_neg (by decide)
    have hE : matExp (𝕜 := ℂ) (k := 1) 1 (!![0, 2 * Complex.I; 2 * Complex.I, 0] : Mat 2) = !![1, 2 * Complex.I; 2 * Complex.I, 1] := by
      have := matExp_eq (𝕜 := ℂ) (k := 1) 1 (!![0, 2 * Complex.I; 2 * Complex.I, 0] : Mat 2)
      rw [Nat.cast_one] at this
      refine this.trans ?_
      simp only [taylor, Finset.sum_range_succ, Finset.range_zero, Finset.sum_empty]
      ext i j
      fin_cases i <;> fin_cases j <;> simp
    have g1 : hmcStout (L := ![2, 1]) 1 1 1 (gaugeT sG sU) 0 0 = gaugeT sG sU 0 0 *
      matExp (𝕜 := ℂ) (k := 1) 1 (antiProj (((-1 : ℝ) : ℂ) • (gaugeT sG sU 0 0 * stapleAll (gaugeT sG sU) 0 0))) := rfl
    have g2 : gaugeT sG (hmcStout (L := ![2, 1]) 1 1 1 sU) 0 0 = sG 0 * (sU 0 0 *
      matExp (𝕜 := ℂ) (k := 1) 1 (antiProj (((-1 : ℝ) : ℂ) • (sU 0 0 * stapleAll sU 0 0)))) * (sG (0 + Pi.single 0 1))ᴴ := rfl
    have g3 : gaugeT sG sU 0 0 = sG 0 * sU 0 0 * (sG (0 + Pi.single 0 1))ᴴ := rfl
    rw [g1, g2, hQ, hE, hU, e0, e1] at h1
    rw [hs] at h1
    rw [g3, hU, e0, e1, hE] at h1
    have h2 := congrFun (congrFun h1 0) 1
    simp [sW, Matrix.mul_apply, Fin.sum_univ_two, conjTranspose_apply, mul_assoc] at h2
    norm_num [Complex.ext_iff] at h2

/-! ## Memory -/

/-- **C108, memory.** With at least one step every entry of the array of fields is set, and the last one is the field of the object. -/
theorem C108_allocate (m : ℕ) (hm : 1 ≤ m) : stoutAllocate m = some (List.replicate (m - 1) (some false) ++ [some true]) := by
  obtain ⟨j, rfl⟩ : ∃ j, m = j + 1 := ⟨m - 1, by omega⟩
  have h : ∀ i ≤ j, (List.range i).foldl (fun a i => a.set i (some false)) (List.replicate (j + 1) (none : Option Bool)) =
      List.replicate i (some false) ++ List.replicate (j + 1 - i) none := by
    intro i hi
    induction i with
    | zero => simp
    | succ i ih =>
      rw [List.range_succ, List.foldl_append, ih (by omega), List.foldl_cons, List.foldl_nil, List.set_append_right _ _ (by simp)]
      obtain ⟨q, hq⟩ : ∃ q, j + 1 - i = q + 1 := ⟨j - i, by omega⟩
      rw [hq, List.length_replicate, Nat.sub_self, List.replicate_succ, List.set_cons_zero, show j + 1 - (i + 1) = q by omega,
        List.replicate_succ']
      simp
  unfold stoutAllocate
  have e1 : (((j + 1 : ℕ) : ℤ) - 1).toNat = j := by omega
  rw [if_neg (by omega), if_neg (by omega), e1, Int.toNat_natCast, h j le_rfl, List.set_append_right _ _ (by simp)]
  simp

/-- **C108 fails without smearing steps**: the constructor writes to the entry `-1` of both arrays. -/
theorem C108_zero_steps_wrong : stoutAllocate 0 = none := by decide

end Hila
