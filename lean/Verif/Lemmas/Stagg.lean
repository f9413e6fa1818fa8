import Verif.Model.Fermion
import Verif.Lemmas.Force
import Verif.Props.Gauge
import Mathlib.Data.Matrix.Mul

/-!
# Facts about the hopping term of the staggered operator
-/

namespace Hila

open Matrix

variable {n : ℕ} {L : Fin n → ℕ} {N : ℕ}

/-- The complex scalar product on the sites of a parity. -/
noncomputable def cdotOn [∀ d, NeZero (L d)] (par : Parity) (chi psi : CField L N) : ℂ :=
  ∑ x, if VisitsPar par x then star (chi x) ⬝ᵥ psi x else 0

theorem rdotOn_eq [∀ d, NeZero (L d)] (par : Parity) (chi psi : CField L N) : rdotOn par chi psi = (cdotOn par chi psi).re := by
  unfold rdotOn cdotOn
  rw [Complex.re_sum]
  refine Finset.sum_congr rfl fun x _ => ?_
  split_ifs
  · rfl
  · rfl

/-- The sign of a step across the boundary. -/
def bcSign (bc : Fin n → Bool) (d : Fin n) (x : PSite L) : ℂ := if bc d ∧ (x d).val + 1 = L d then -1 else 1

theorem bcSign_star (bc : Fin n → Bool) (d : Fin n) (x : PSite L) : star (bcSign bc d x) = bcSign bc d x := by
  unfold bcSign
  split_ifs <;> simp

theorem bcSign_sq (bc : Fin n → Bool) (d : Fin n) (x : PSite L) : bcSign bc d x * bcSign bc d x = 1 := by
  unfold bcSign
  split_ifs <;> simp

theorem zmod_pred_val {m : ℕ} [NeZero m] (a : ZMod m) : (a - 1).val + 1 = m ↔ a.val = 0 := by
  rw [ZMod.val_eq_zero]
  constructor
  · intro h
    have : (((a - 1).val + 1 : ℕ) : ZMod m) = 0 := by rw [h]; simp
    simpa using this
  · rintro rfl
    have h1 : ((-1 : ZMod m)).val < m := ZMod.val_lt _
    have h2 : (((-1 : ZMod m).val + 1 : ℕ) : ZMod m) = 0 := by simp
    rw [ZMod.natCast_eq_zero_iff] at h2
    obtain ⟨k, hk⟩ := h2
    rw [zero_sub]
    have hk1 : k = 1 := by
      rcases k with _ | _ | k
      · simp at hk
      · rfl
      · nlinarith
    rw [hk, hk1, mul_one]

theorem fwdBc_eq (bc : Fin n → Bool) (f : CField L N) (d : Fin n) (x : PSite L) : fwdBc bc f d x = bcSign bc d x • f (x + unitStep d) := by
  unfold fwdBc bcSign
  split_ifs <;> simp

theorem bwdBc_eq [∀ d, NeZero (L d)] (bc : Fin n → Bool) (f : CField L N) (d : Fin n) (x : PSite L) :
    bwdBc bc f d x = bcSign bc d (x - unitStep d) • f (x - unitStep d) := by
  unfold bwdBc bcSign
  have h : ((x - unitStep d : PSite L) d).val + 1 = L d ↔ (x d).val = 0 := by
    have : (x - unitStep d : PSite L) d = x d - 1 := by simp [unitStep]
    rw [this]
    exact zmod_pred_val _
  simp only [h]
  split_ifs <;> simp

/-! ### The phases -/

/-- The sum of the coordinates before `d`. -/
def coordsBelow (d : Fin n) (x : PSite L) : ℕ := ∑ d2, if d2 < d then (x d2).val else 0

theorem stagEta_eq (d : Fin n) (x : PSite L) : stagEta d x = -(-1) ^ coordsBelow d x := by
  have h : ∀ (l : List (Fin n)) (s : ℕ), l.foldl (fun s d2 => if d2 < d then s + (x d2).val else s) s =
      s + (l.map fun d2 => if d2 < d then (x d2).val else 0).sum := by
    intro l
    induction l with
    | nil => intro s; simp
    | cons a l ih =>
      intro s
      rw [List.foldl_cons, ih, List.map_cons, List.sum_cons]
      split_ifs <;> omega
  unfold stagEta coordsBelow
  dsimp only
  rw [h, zero_add, ← List.ofFn_eq_map, List.sum_ofFn]
  rcases Nat.mod_two_eq_zero_or_one (∑ d2, if d2 < d then (x d2).val else 0) with h0 | h0
  · rw [h0, (Nat.even_iff.2 h0).neg_one_pow]
    norm_num
  · rw [h0, (Nat.odd_iff.2 h0).neg_one_pow]
    norm_num

theorem coordsBelow_self (d : Fin n) (x v : PSite L) (hv : ∀ d2, d2 < d → v d2 = 0) : coordsBelow d (x + v) = coordsBelow d x := by
  unfold coordsBelow
  refine Finset.sum_congr rfl fun d2 _ => ?_
  split_ifs with h
  · rw [Pi.add_apply, hv d2 h, add_zero]
  · rfl

theorem stagEta_add (d e : Fin n) (h : d ≤ e) (x : PSite L) : stagEta d (x + unitStep e) = stagEta d x := by
  rw [stagEta_eq, stagEta_eq, coordsBelow_self]
  intro d2 h2
  have : d2 ≠ e := fun h3 => by omega
  simp [unitStep, this]

theorem stagEta_sub (d e : Fin n) (h : d ≤ e) (x : PSite L) : stagEta d (x - unitStep e) = stagEta d x := by
  have := stagEta_add d e h (x - unitStep e)
  rw [sub_add_cancel] at this
  exact this.symm

theorem stagEta_sq (d : Fin n) (x : PSite L) : stagEta d x * stagEta d x = 1 := by
  rw [stagEta_eq, neg_mul_neg, ← pow_add, ← two_mul, pow_mul]
  simp

theorem zmod_val_cast {m : ℕ} [NeZero m] (hm : Even m) (a b : ZMod m) : (((a + b).val : ℕ) : ZMod 2) = (a.val : ZMod 2) + (b.val : ZMod 2) := by
  have h2 : 2 ∣ m := hm.two_dvd
  have h : ∀ c : ZMod m, ((c.val : ℕ) : ZMod 2) = ZMod.castHom h2 (ZMod 2) c := by
    intro c
    rw [ZMod.castHom_apply, ZMod.natCast_val]
  rw [h, h, h, map_add]

theorem neg_one_pow_cast (a : ℕ) : ((-1 : ℝ)) ^ a = if ((a : ℕ) : ZMod 2) = 0 then 1 else -1 := by
  split_ifs with h
  · rw [ZMod.natCast_eq_zero_iff] at h
    exact (even_iff_two_dvd.2 h).neg_one_pow
  · rw [ZMod.natCast_eq_zero_iff] at h
    exact (Nat.not_even_iff_odd.1 fun h2 => h h2.two_dvd).neg_one_pow

theorem coordsBelow_cast [∀ d, NeZero (L d)] (hL : ∀ d, Even (L d)) (d : Fin n) (x v : PSite L) :
    ((coordsBelow d (x + v) : ℕ) : ZMod 2) = (coordsBelow d x : ZMod 2) + (coordsBelow d v : ZMod 2) := by
  unfold coordsBelow
  rw [Nat.cast_sum, Nat.cast_sum, Nat.cast_sum, ← Finset.sum_add_distrib]
  refine Finset.sum_congr rfl fun d2 _ => ?_
  split_ifs
  · exact zmod_val_cast (hL d2) _ _
  · simp

theorem coordsBelow_unit [∀ d, NeZero (L d)] (hL : ∀ d, Even (L d)) {d e : Fin n} (h : e < d) : ((coordsBelow d (unitStep e : PSite L) : ℕ) : ZMod 2) = 1 := by
  unfold coordsBelow
  rw [Finset.sum_eq_single e]
  · rw [if_pos h]
    have : Fact (1 < L e) := ⟨by
      obtain ⟨k, hk⟩ := hL e
      have := NeZero.ne (L e)
      omega⟩
    simp [unitStep, ZMod.val_one]
  · intro d2 _ hne
    split_ifs
    · simp [unitStep, hne]
    · rfl
  · simp

theorem stagEta_flip [∀ d, NeZero (L d)] (hL : ∀ d, Even (L d)) {d e : Fin n} (h : e < d) (x : PSite L) :
    stagEta d (x + unitStep e) = -stagEta d x := by
  rw [stagEta_eq, stagEta_eq, neg_one_pow_cast, neg_one_pow_cast, coordsBelow_cast hL, coordsBelow_unit hL h]
  have : ∀ a : ZMod 2, (if a + 1 = 0 then (1 : ℝ) else -1) = -(if a = 0 then 1 else -1) := by
    intro a
    have h2 : a = 0 ∨ a = 1 := by
      revert a
      decide
    rcases h2 with rfl | rfl
    · have h1 : ¬((0 : ZMod 2) + 1 = 0) := by decide
      rw [if_neg h1, if_pos rfl]
    · have h1 : ((1 : ZMod 2) + 1 = 0) := by decide
      have h3 : ¬((1 : ZMod 2) = 0) := by decide
      rw [if_pos h1, if_neg h3, neg_neg]
  rw [this]

/-! ### Parity of sites -/

theorem parSum_add [∀ d, NeZero (L d)] (hL : ∀ d, Even (L d)) (x : PSite L) (d : Fin n) :
    (∑ e, ((x + unitStep d : PSite L) e).val) % 2 = ((∑ e, (x e).val) + 1) % 2 := by
  have h : (((∑ e, ((x + unitStep d : PSite L) e).val : ℕ)) : ZMod 2) = (((∑ e, (x e).val) + 1 : ℕ) : ZMod 2) := by
    rw [Nat.cast_add, Nat.cast_sum, Nat.cast_sum]
    have : ∀ e, ((((x + unitStep d : PSite L) e).val : ℕ) : ZMod 2) = ((x e).val : ZMod 2) + if e = d then 1 else 0 := by
      intro e
      rw [Pi.add_apply, zmod_val_cast (hL e)]
      congr 1
      split_ifs with he
      · subst he
        have : Fact (1 < L e) := ⟨by
          obtain ⟨k, hk⟩ := hL e
          have := NeZero.ne (L e)
          omega⟩
        simp [unitStep, ZMod.val_one]
      · simp [unitStep, he]
    simp only [this, Finset.sum_add_distrib]
    simp
  exact (ZMod.natCast_eq_natCast_iff _ _ _).1 h

theorem visits_fwd [∀ d, NeZero (L d)] {par : Parity} (hp : par = .all ∨ ∀ d, Even (L d)) (x : PSite L) (d : Fin n) :
    VisitsPar (oppParity par) (x + unitStep d) ↔ VisitsPar par x := by
  rcases hp with rfl | hL
  · exact Iff.rfl
  · have h := parSum_add hL x d
    cases par
    case all => exact Iff.rfl
    case none => exact Iff.rfl
    case even =>
      change (∑ e, ((x + unitStep d : PSite L) e).val) % 2 = 1 ↔ (∑ e, (x e).val) % 2 = 0
      omega
    case odd =>
      change (∑ e, ((x + unitStep d : PSite L) e).val) % 2 = 0 ↔ (∑ e, (x e).val) % 2 = 1
      omega

theorem visits_bwd [∀ d, NeZero (L d)] {par : Parity} (hp : par = .all ∨ ∀ d, Even (L d)) (x : PSite L) (d : Fin n) :
    VisitsPar (oppParity par) (x - unitStep d) ↔ VisitsPar par x := by
  have hp' : oppParity par = .all ∨ ∀ d, Even (L d) := hp.imp (fun h => by rw [h]; rfl) id
  have h := visits_fwd hp' (x - unitStep d) d
  rw [sub_add_cancel] at h
  have h2 : oppParity (oppParity par) = par := by cases par <;> rfl
  rw [h2] at h
  exact h.symm

/-! ### The hopping term -/

/-- The hopping term at a site. -/
noncomputable def hopAt (bc : Fin n → Bool) (U : GField L N) (psi : CField L N) (x : PSite L) : Fin N → ℂ :=
  ∑ d, ((0.5 * stagEta d x : ℝ) : ℂ) • (bcSign bc d x • (U d x).mulVec (psi (x + unitStep d)) -
    bcSign bc d (x - unitStep d) • ((U d (x - unitStep d))ᴴ).mulVec (psi (x - unitStep d)))

theorem assign_fold {T ι : Type} [AddCommMonoid T] (par : Parity) (f : ι → PSite L → T) (l : List ι) (v : PSite L → T) (x : PSite L) :
    l.foldl (fun vo d => assignOn par vo fun x => vo x + f d x) v x = if VisitsPar par x then v x + (l.map fun d => f d x).sum else v x := by
  induction l generalizing v with
  | nil => simp
  | cons a l ih =>
    rw [List.foldl_cons, ih]
    unfold assignOn
    split_ifs
    · rw [List.map_cons, List.sum_cons, add_assoc]
    · rfl

theorem hop_term [∀ d, NeZero (L d)] {par : Parity} (hp : par = .all ∨ ∀ d, Even (L d)) (bc : Fin n → Bool) (tmp : Fin n → CField L N)
    (U : GField L N) (v w : CField L N) (sign : ℤ) (d : Fin n) (x : PSite L) (hx : VisitsPar par x)
    (hw : w (x + unitStep d) = v (x + unitStep d)) :
    ((0.5 * sign * stagEta d x : ℝ) : ℂ) • ((U d x).mulVec (fwdBc bc w d x) - bwdBc bc (stagTemp U tmp v par d) d x) =
      (sign : ℂ) • ((0.5 * stagEta d x : ℝ) : ℂ) • (bcSign bc d x • (U d x).mulVec (v (x + unitStep d)) -
        bcSign bc d (x - unitStep d) • ((U d (x - unitStep d))ᴴ).mulVec (v (x - unitStep d))) := by
  have ht : stagTemp U tmp v par d (x - unitStep d) = ((U d (x - unitStep d))ᴴ).mulVec (v (x - unitStep d)) := by
    unfold stagTemp assignOn
    rw [if_pos ((visits_bwd hp x d).2 hx)]
  rw [fwdBc_eq, bwdBc_eq, ht, hw, mulVec_smul, smul_smul]
  congr 1
  push_cast
  ring

theorem stagHop_eq [∀ d, NeZero (L d)] {par : Parity} (hp : par = .all ∨ ∀ d, Even (L d)) (bc : Fin n → Bool) (tmp : Fin n → CField L N)
    (U : GField L N) (vin vout : CField L N) (sign : ℤ) (x : PSite L) :
    stagHop bc tmp U vin vout par sign x = if VisitsPar par x then vout x + (sign : ℂ) • hopAt bc U vin x else vout x := by
  unfold stagHop
  rw [assign_fold par (fun d x => ((0.5 * sign * stagEta d x : ℝ) : ℂ) • ((U d x).mulVec (fwdBc bc vin d x) - bwdBc bc (stagTemp U tmp vin par d) d x))]
  split_ifs with hx
  · congr 1
    rw [← List.ofFn_eq_map, List.sum_ofFn]
    unfold hopAt
    rw [Finset.smul_sum]
    exact Finset.sum_congr rfl fun d _ => hop_term hp bc tmp U vin vin sign d x hx rfl
  · rfl

/-- The loops with one field for input and output compute the same on a lattice of even size. -/
theorem stagHopSelf_eq [∀ d, NeZero (L d)] (hL : ∀ d, Even (L d)) {par : Parity} (hpar : par = .even ∨ par = .odd) (bc : Fin n → Bool)
    (tmp : Fin n → CField L N) (U : GField L N) (v : CField L N) (sign : ℤ) (x : PSite L) :
    stagHopSelf bc tmp U v par sign x = if VisitsPar par x then v x + (sign : ℂ) • hopAt bc U v x else v x := by
  rw [← stagHop_eq (Or.inr hL) bc tmp U v v sign x]
  unfold stagHopSelf stagHop
  have hne : ∀ y : PSite L, VisitsPar (oppParity par) y → ¬ VisitsPar par y := by
    intro y h1 h2
    rcases hpar with rfl | rfl
    · change (∑ e, (y e).val) % 2 = 1 at h1
      change (∑ e, (y e).val) % 2 = 0 at h2
      omega
    · change (∑ e, (y e).val) % 2 = 0 at h1
      change (∑ e, (y e).val) % 2 = 1 at h2
      omega
  have key : ∀ (l : List (Fin n)) (w : CField L N), (∀ y, ¬ VisitsPar par y → w y = v y) →
      l.foldl (fun vo d => assignOn par vo fun x =>
        vo x + ((0.5 * sign * stagEta d x : ℝ) : ℂ) • ((U d x).mulVec (fwdBc bc vo d x) - bwdBc bc (stagTemp U tmp v par d) d x)) w =
      l.foldl (fun vo d => assignOn par vo fun x =>
        vo x + ((0.5 * sign * stagEta d x : ℝ) : ℂ) • ((U d x).mulVec (fwdBc bc v d x) - bwdBc bc (stagTemp U tmp v par d) d x)) w := by
    intro l
    induction l with
    | nil => intro w _; rfl
    | cons a l ih =>
      intro w hw
      rw [List.foldl_cons, List.foldl_cons]
      have e : (assignOn par w fun x =>
          w x + ((0.5 * sign * stagEta a x : ℝ) : ℂ) • ((U a x).mulVec (fwdBc bc w a x) - bwdBc bc (stagTemp U tmp v par a) a x)) =
          assignOn par w fun x =>
          w x + ((0.5 * sign * stagEta a x : ℝ) : ℂ) • ((U a x).mulVec (fwdBc bc v a x) - bwdBc bc (stagTemp U tmp v par a) a x) := by
        funext y
        unfold assignOn
        split_ifs with hy
        · beta_reduce
          rw [fwdBc_eq, fwdBc_eq, hw _ (hne _ ((visits_fwd (Or.inr hL) y a).2 hy))]
        · rfl
      rw [e]
      refine ih _ fun y hy => ?_
      unfold assignOn
      rw [if_neg hy, hw y hy]
  rw [key _ v fun _ _ => rfl]

theorem hopAt_congr (bc : Fin n → Bool) (U : GField L N) {psi phi : CField L N} (x : PSite L)
    (h : ∀ d, psi (x + unitStep d) = phi (x + unitStep d) ∧ psi (x - unitStep d) = phi (x - unitStep d)) : hopAt bc U psi x = hopAt bc U phi x := by
  unfold hopAt
  exact Finset.sum_congr rfl fun d _ => by rw [(h d).1, (h d).2]

theorem hopAt_add (bc : Fin n → Bool) (U : GField L N) (psi phi : CField L N) (x : PSite L) :
    hopAt bc U (psi + phi) x = hopAt bc U psi x + hopAt bc U phi x := by
  unfold hopAt
  rw [← Finset.sum_add_distrib]
  refine Finset.sum_congr rfl fun d _ => ?_
  rw [← smul_add, Pi.add_apply, Pi.add_apply, mulVec_add, mulVec_add, smul_add, smul_add]
  congr 1
  abel

theorem hopAt_smul (bc : Fin n → Bool) (U : GField L N) (c : ℂ) (psi : CField L N) (x : PSite L) :
    hopAt bc U (c • psi) x = c • hopAt bc U psi x := by
  unfold hopAt
  rw [Finset.smul_sum]
  refine Finset.sum_congr rfl fun d _ => ?_
  simp only [Pi.smul_apply, mulVec_smul]
  rw [smul_comm _ c, smul_comm _ c, ← smul_sub, smul_comm]

theorem star_dot_mulVec (A : Mat N) (a b : Fin N → ℂ) : star a ⬝ᵥ A.mulVec b = star (Aᴴ.mulVec a) ⬝ᵥ b := by
  rw [star_mulVec, conjTranspose_conjTranspose, dotProduct_mulVec]

/-- The scalar product with the hopping term as a sum over the links. -/
theorem hop_dot [∀ d, NeZero (L d)] (bc : Fin n → Bool) (U : GField L N) (a b : CField L N) : ∑ x, star (a x) ⬝ᵥ hopAt bc U b x =
      ∑ d, ((∑ x, ((0.5 * stagEta d x : ℝ) : ℂ) * bcSign bc d x * (star (a x) ⬝ᵥ (U d x).mulVec (b (x + unitStep d)))) -
        ∑ x, ((0.5 * stagEta d x : ℝ) : ℂ) * bcSign bc d x * (star (a (x + unitStep d)) ⬝ᵥ ((U d x)ᴴ).mulVec (b x))) := by
  unfold hopAt
  simp only [dotProduct_sum]
  rw [Finset.sum_comm]
  refine Finset.sum_congr rfl fun d _ => ?_
  have h2 := sum_shift (unitStep d) fun x : PSite L => ((0.5 * stagEta d x : ℝ) : ℂ) * bcSign bc d (x - unitStep d) *
    (star (a x) ⬝ᵥ ((U d (x - unitStep d))ᴴ).mulVec (b (x - unitStep d)))
  simp only [add_sub_cancel_right, stagEta_add d d le_rfl] at h2
  rw [h2, ← Finset.sum_sub_distrib]
  refine Finset.sum_congr rfl fun x _ => ?_
  rw [dotProduct_smul, dotProduct_sub, dotProduct_smul, dotProduct_smul, smul_eq_mul, smul_eq_mul, smul_eq_mul]
  ring

/-- The hopping term is antihermitean. -/
theorem hopAt_anti [∀ d, NeZero (L d)] (bc : Fin n → Bool) (U : GField L N) (chi psi : CField L N) :
    ∑ x, star (chi x) ⬝ᵥ hopAt bc U psi x = -∑ x, star (hopAt bc U chi x) ⬝ᵥ psi x := by
  have e2 : ∑ x, star (hopAt bc U chi x) ⬝ᵥ psi x = star (∑ x, star (psi x) ⬝ᵥ hopAt bc U chi x) := by
    rw [star_sum]
    exact Finset.sum_congr rfl fun x _ => by rw [star_dotProduct]
  have e3 : ∀ r : ℝ, star (r : ℂ) = r := fun r => Complex.conj_ofReal r
  rw [e2, hop_dot, hop_dot, star_sum, ← Finset.sum_neg_distrib]
  refine Finset.sum_congr rfl fun d _ => ?_
  rw [star_sub, star_sum, star_sum, neg_sub]
  congr 1
  · refine Finset.sum_congr rfl fun x _ => ?_
    rw [star_mul', star_mul', bcSign_star, e3, star_dot_mulVec ((U d x)ᴴ), conjTranspose_conjTranspose, star_dotProduct]
  · refine Finset.sum_congr rfl fun x _ => ?_
    rw [star_mul', star_mul', bcSign_star, e3, star_dot_mulVec (U d x), star_dotProduct]

/-! ### Restriction to a parity -/

/-- A field set to zero at the sites that are not of a parity. -/
noncomputable def restrP (par : Parity) (f : CField L N) : CField L N := fun x => if VisitsPar par x then f x else 0

theorem cdotOn_restr [∀ d, NeZero (L d)] (par : Parity) (chi psi : CField L N) :
    cdotOn par chi psi = ∑ x, star (restrP par chi x) ⬝ᵥ psi x := by
  unfold cdotOn restrP
  refine Finset.sum_congr rfl fun x _ => ?_
  split_ifs
  · rfl
  · simp

theorem opp_opp (par : Parity) : oppParity (oppParity par) = par := by cases par <;> rfl

/-- At the sites of one parity the hopping term has only values at the sites of the other. -/
theorem hopAt_restr [∀ d, NeZero (L d)] {par : Parity} (hp : par = .all ∨ ∀ d, Even (L d)) (bc : Fin n → Bool) (U : GField L N)
    (psi : CField L N) (x : PSite L) (hx : VisitsPar par x) : hopAt bc U (restrP (oppParity par) psi) x = hopAt bc U psi x := by
  refine hopAt_congr bc U x fun d => ⟨?_, ?_⟩
  · unfold restrP
    rw [if_pos ((visits_fwd hp x d).2 hx)]
  · unfold restrP
    rw [if_pos ((visits_bwd hp x d).2 hx)]

/-- The hopping term between the two parities is antihermitean. -/
theorem hop_anti_par [∀ d, NeZero (L d)] {par : Parity} (hp : par = .all ∨ ∀ d, Even (L d)) (bc : Fin n → Bool) (U : GField L N)
    (chi psi : CField L N) : cdotOn par chi (hopAt bc U psi) = -cdotOn (oppParity par) (hopAt bc U chi) psi := by
  have hp' : oppParity par = .all ∨ ∀ d, Even (L d) := hp.imp (fun h => by rw [h]; rfl) id
  have h1 := hopAt_anti bc U (restrP par chi) (restrP (oppParity par) psi)
  have h2 : ∑ x, star (restrP par chi x) ⬝ᵥ hopAt bc U (restrP (oppParity par) psi) x = cdotOn par chi (hopAt bc U psi) := by
    rw [cdotOn_restr]
    refine Finset.sum_congr rfl fun x _ => ?_
    by_cases hx : VisitsPar par x
    · rw [hopAt_restr hp bc U psi x hx]
    · unfold restrP
      rw [if_neg hx]
      simp
  have h3 : ∑ x, star (hopAt bc U (restrP par chi) x) ⬝ᵥ restrP (oppParity par) psi x = cdotOn (oppParity par) (hopAt bc U chi) psi := by
    unfold cdotOn
    refine Finset.sum_congr rfl fun x _ => ?_
    by_cases hx : VisitsPar (oppParity par) x
    · have := hopAt_restr hp' bc U chi x hx
      rw [opp_opp] at this
      rw [this, if_pos hx]
      unfold restrP
      rw [if_pos hx]
    · unfold restrP
      rw [if_neg hx, if_neg hx]
      simp
  rw [h2, h3] at h1
  exact h1

/-! ### The force of the hopping term -/

/-- The derivative along the curve `U' = A U` that the matrices `F` describe. -/
noncomputable def pairM [∀ d, NeZero (L d)] (A U F : GField L N) : ℝ := ∑ d, ∑ x, (A d x * U d x * F d x).trace.re

theorem trace_mul_outer (M : Mat N) (a b : Fin N → ℂ) : (M * outerP a b).trace = star b ⬝ᵥ M.mulVec a := by
  unfold Matrix.trace dotProduct mulVec outerP dotProduct
  refine Finset.sum_congr rfl fun i _ => ?_
  simp only [diag_apply, mul_apply, of_apply, Pi.star_apply, Finset.mul_sum]
  exact Finset.sum_congr rfl fun j _ => by ring

theorem stagCalcForce_eq (bc : Fin n → Bool) (chi psi : CField L N) (sign : ℤ) (par : Parity) (d : Fin n) (x : PSite L) :
    stagCalcForce bc chi psi sign par d x =
      (if VisitsPar par x then ((-sign * 0.5 * stagEta d x : ℝ) : ℂ) • outerP (fwdBc bc chi d x) (psi x) else 0) +
      if VisitsPar (oppParity par) x then ((sign * 0.5 * stagEta d (x + unitStep d) : ℝ) : ℂ) • outerP (fwdBc bc psi d x) (chi x) else 0 := by
  unfold stagCalcForce assignOn
  dsimp only
  split_ifs <;> simp

/-- A complex function with the real derivative. -/
theorem re_deriv {f : ℝ → ℂ} {f' : ℂ} (h : HasDerivAt f f' 0) : HasDerivAt (fun t => (f t).re) f'.re 0 :=
  Complex.reCLM.hasFDerivAt.comp_hasDerivAt 0 h

theorem mulVec_deriv {M : ℝ → Mat N} {M' : Mat N} (h : MDeriv M M') (a b : Fin N → ℂ) :
    HasDerivAt (fun t => star a ⬝ᵥ (M t).mulVec b) (star a ⬝ᵥ M'.mulVec b) 0 := by
  unfold dotProduct mulVec dotProduct
  refine HasDerivAt.fun_sum fun i _ => ?_
  refine HasDerivAt.const_mul _ ?_
  exact HasDerivAt.fun_sum fun j _ => (h i j).mul_const _

/-- `dirac_staggered_calc_force` is the derivative of the scalar product with the hopping term. -/
theorem hop_force [∀ d, NeZero (L d)] {par : Parity} (hp : par = .all ∨ ∀ d, Even (L d)) (bc : Fin n → Bool) {U : ℝ → GField L N}
    {A : GField L N} (hU : LinkCurve U A) (chi psi : CField L N) (sign : ℤ) :
    HasDerivAt (fun t => (cdotOn (oppParity par) chi (fun x => (sign : ℂ) • hopAt bc (U t) psi x)).re)
      (pairM A (U 0) (stagCalcForce bc chi psi sign par)) 0 := by
  have e : ∀ t, (cdotOn (oppParity par) chi (fun x => (sign : ℂ) • hopAt bc (U t) psi x)).re =
      ((sign : ℂ) * ∑ d, ((∑ x, ((0.5 * stagEta d x : ℝ) : ℂ) * bcSign bc d x *
        (star (restrP (oppParity par) chi x) ⬝ᵥ (U t d x).mulVec (psi (x + unitStep d)))) -
        ∑ x, ((0.5 * stagEta d x : ℝ) : ℂ) * bcSign bc d x *
          (star (restrP (oppParity par) chi (x + unitStep d)) ⬝ᵥ ((U t d x)ᴴ).mulVec (psi x)))).re := by
    intro t
    rw [cdotOn_restr, ← hop_dot, Finset.mul_sum]
    congr 1
    exact Finset.sum_congr rfl fun x _ => by rw [dotProduct_smul, smul_eq_mul]
  simp only [e]
  have hd : HasDerivAt (fun t => ((sign : ℂ) * ∑ d, ((∑ x, ((0.5 * stagEta d x : ℝ) : ℂ) * bcSign bc d x *
        (star (restrP (oppParity par) chi x) ⬝ᵥ (U t d x).mulVec (psi (x + unitStep d)))) -
        ∑ x, ((0.5 * stagEta d x : ℝ) : ℂ) * bcSign bc d x *
          (star (restrP (oppParity par) chi (x + unitStep d)) ⬝ᵥ ((U t d x)ᴴ).mulVec (psi x)))))
      ((sign : ℂ) * ∑ d, ((∑ x, ((0.5 * stagEta d x : ℝ) : ℂ) * bcSign bc d x *
        (star (restrP (oppParity par) chi x) ⬝ᵥ (A d x * U 0 d x).mulVec (psi (x + unitStep d)))) -
        ∑ x, ((0.5 * stagEta d x : ℝ) : ℂ) * bcSign bc d x *
          (star (restrP (oppParity par) chi (x + unitStep d)) ⬝ᵥ ((A d x * U 0 d x)ᴴ).mulVec (psi x)))) 0 := by
    refine HasDerivAt.const_mul _ ?_
    refine HasDerivAt.fun_sum fun d _ => ?_
    refine HasDerivAt.sub ?_ ?_
    · exact HasDerivAt.fun_sum fun x _ => (mulVec_deriv (hU d x) _ _).const_mul _
    · exact HasDerivAt.fun_sum fun x _ => (mulVec_deriv (hU d x).star _ _).const_mul _
  refine (re_deriv hd).congr_deriv ?_
  unfold pairM
  rw [Finset.mul_sum, Complex.re_sum]
  refine Finset.sum_congr rfl fun d _ => ?_
  rw [← Finset.sum_sub_distrib, Finset.mul_sum, Complex.re_sum]
  refine Finset.sum_congr rfl fun x _ => ?_
  have hs : ∀ z : ℂ, (bcSign bc d x * star z).re = (bcSign bc d x * z).re := by
    intro z
    unfold bcSign
    split_ifs <;> simp
  rw [stagCalcForce_eq, Matrix.mul_add, Matrix.trace_add, Complex.add_re, fwdBc_eq, fwdBc_eq, stagEta_add d d le_rfl]
  have t1 : ((A d x * U 0 d x) * (if VisitsPar (oppParity par) x then
      ((sign * 0.5 * stagEta d x : ℝ) : ℂ) • outerP (bcSign bc d x • psi (x + unitStep d)) (chi x) else 0)).trace =
      ((sign * 0.5 * stagEta d x : ℝ) : ℂ) * (bcSign bc d x * (star (restrP (oppParity par) chi x) ⬝ᵥ
        (A d x * U 0 d x).mulVec (psi (x + unitStep d)))) := by
    unfold restrP
    split_ifs
    · rw [Matrix.mul_smul, Matrix.trace_smul, trace_mul_outer, mulVec_smul, dotProduct_smul, smul_eq_mul, smul_eq_mul]
    · simp
  have t2 : ((A d x * U 0 d x) * (if VisitsPar par x then
      ((-sign * 0.5 * stagEta d x : ℝ) : ℂ) • outerP (bcSign bc d x • chi (x + unitStep d)) (psi x) else 0)).trace =
      ((-sign * 0.5 * stagEta d x : ℝ) : ℂ) * (bcSign bc d x * star (star (restrP (oppParity par) chi (x + unitStep d)) ⬝ᵥ
        ((A d x * U 0 d x)ᴴ).mulVec (psi x))) := by
    unfold restrP
    simp only [visits_fwd hp]
    split_ifs
    · rw [Matrix.mul_smul, Matrix.trace_smul, trace_mul_outer, mulVec_smul, dotProduct_smul, smul_eq_mul, smul_eq_mul,
        star_dot_mulVec ((A d x * U 0 d x)ᴴ), conjTranspose_conjTranspose, star_dotProduct]
    · simp
  rw [t1, t2, Complex.re_ofReal_mul, Complex.re_ofReal_mul, hs]
  generalize star (restrP (oppParity par) chi x) ⬝ᵥ (A d x * U 0 d x).mulVec (psi (x + unitStep d)) = z1
  generalize star (restrP (oppParity par) chi (x + unitStep d)) ⬝ᵥ ((A d x * U 0 d x)ᴴ).mulVec (psi x) = z2
  have e1 : (sign : ℂ) * (((0.5 * stagEta d x : ℝ) : ℂ) * bcSign bc d x * z1 - ((0.5 * stagEta d x : ℝ) : ℂ) * bcSign bc d x * z2) =
      ((sign * 0.5 * stagEta d x : ℝ) : ℂ) * (bcSign bc d x * z1 - bcSign bc d x * z2) := by
    push_cast
    ring
  rw [e1, Complex.re_ofReal_mul, Complex.sub_re]
  ring

end Hila
