import Verif.Model.Shift
import Verif.Lemmas.Gather
import Mathlib.Tactic.Abel
import Mathlib.Tactic.Ring

/-!
# Lemmas about shifts
-/

namespace Hila

open BigOperators

variable {n : ℕ} {V : Type} (lay : Layout n)

/-- The site `c + v`, periodically. -/
def shiftAt (v : CV n) (c : Site n) : Site n := fun b => (((c b : ℤ) + v b) % (lay.L b : ℤ)).toNat

theorem shiftAt_zero (c : Site n) (hc : lay.InLattice c) : shiftAt lay 0 c = c := by
  funext b
  have := hc b
  simp only [shiftAt, Pi.zero_apply, add_zero]
  rw [Int.emod_eq_of_lt (by omega) (by omega)]
  omega

theorem shiftAt_inLattice (h : lay.WF) (v : CV n) (c : Site n) : lay.InLattice (shiftAt lay v c) := by
  intro b
  have hL := h.L_pos b
  have h1 := Int.emod_lt_of_pos ((c b : ℤ) + v b) (show (0 : ℤ) < lay.L b by omega)
  have h2 := Int.emod_nonneg ((c b : ℤ) + v b) (show (lay.L b : ℤ) ≠ 0 by omega)
  simp only [shiftAt]
  omega

theorem neighbour_shiftAt (h : lay.WF) (c : Site n) (d : Dir n) :
    lay.neighbour c d = shiftAt lay (CV.ofDir d) c := by
  funext b
  have hL := h.L_pos b
  simp only [Layout.neighbour, CV.mod, shiftAt]
  rw [pmod_eq_emod _ _ (by simp only [Site.toCV]; omega), addDir_eq]
  rfl

theorem shiftAt_neighbour (h : lay.WF) (v : CV n) (c : Site n) (d : Dir n) :
    shiftAt lay v (lay.neighbour c d) = shiftAt lay (v + CV.ofDir d) c := by
  rw [neighbour_shiftAt lay h]
  funext b
  have hL := h.L_pos b
  have h2 := Int.emod_nonneg ((c b : ℤ) + CV.ofDir d b) (show (lay.L b : ℤ) ≠ 0 by omega)
  simp only [shiftAt, Pi.add_apply]
  rw [Int.toNat_of_nonneg h2, Int.emod_add_emod]
  congr 2
  ring

/-- A step along an even extent changes the parity. -/
theorem neighbour_parity (h : lay.WF) (c : Site n) (hc : lay.InLattice c) (d : Dir n)
    (hev : lay.L (axis d) % 2 = 0) : (lay.neighbour c d).parity = oppParity c.parity := by
  have hce := hc (axis d)
  have hsum : (∑ b, lay.neighbour c d b) + c (axis d) =
      (∑ b, c b) + pstep (isUp d) (lay.L (axis d)) (c (axis d)) := by
    rw [neighbour_eq lay h c hc, Finset.sum_update_of_mem (Finset.mem_univ _),
      ← Finset.sum_sdiff (Finset.subset_univ {axis d}) (f := c), Finset.sum_singleton]
    omega
  have hp : pstep (isUp d) (lay.L (axis d)) (c (axis d)) % 2 ≠ c (axis d) % 2 := by
    cases isUp d
    · rw [pstep_down _ _ hce]; split <;> omega
    · rw [pstep_up _ _ hce]; split <;> omega
  rcases Site.parity_cases c with h1 | h1
  · have e : (lay.neighbour c d).parity = .odd := by
      rw [Site.parity_even_iff] at h1
      rw [Site.parity_odd_iff]; omega
    rw [h1, e]; rfl
  · have e : (lay.neighbour c d).parity = .even := by
      rw [Site.parity_odd_iff] at h1
      rw [Site.parity_even_iff]; omega
    rw [h1, e]; rfl

theorem oppParity_opp (p : Parity) : oppParity (oppParity p) = p := by cases p <;> rfl

/-- The site whose value a loop over `p` copies is a site of the opposite parity. -/
theorem visits_neighbour (h : lay.WF) (p : Parity) (c : Site n) (hc : lay.InLattice c) (d : Dir n)
    (hev : p = .all ∨ lay.L (axis d) % 2 = 0) (hv : p.visits c.parity = true) :
    (oppParity p).visits (lay.neighbour c d).parity = true := by
  rcases hev with hev | hev
  · subst hev; rfl
  · rw [neighbour_parity lay h c hc d hev]
    cases p <;> cases hpc : c.parity <;> simp_all [Parity.visits, oppParity, Parity.bits, Parity.ofBits]

/-- `g` holds the field displaced by `v` on the sites of parity `p`. -/
def HoldsShift (f : Site n → V) (v : CV n) (p : Parity) (g : Site n → Option V) : Prop :=
  ∀ c, lay.InLattice c → p.visits c.parity = true → g c = some (f (shiftAt lay v c))

theorem holds_shiftFrom (h : lay.WF) (f : Site n → V) (v : CV n) (p : Parity)
    (g t : Site n → Option V) (d : Dir n) (hev : p = .all ∨ lay.L (axis d) % 2 = 0)
    (hg : HoldsShift lay f v (oppParity p) g) :
    HoldsShift lay f (v + CV.ofDir d) p (shiftFrom lay t g d p) := by
  intro c hc hv
  simp only [shiftFrom, hv, if_true]
  rw [hg _ (neighbour_inLattice lay h c hc d) (visits_neighbour lay h p c hc d hev hv),
    shiftAt_neighbour lay h]

/-! ### `shift` -/

/-- Invariant of the loop of `shift`: what has been moved plus what remains is `v`; `from` holds
the field moved so far; `res` is written only on parity `P`, and the number of remaining moves
tells which of the two buffers is the target. -/
structure ShiftInv (f : Site n → V) (v : CV n) (P : Parity) (res0 : Site n → Option V)
    (s : ShiftState n V) : Prop where
  moved : ∃ m, m + s.rem = v ∧ HoldsShift lay f m (oppParity s.par) s.from
  target : s.toRes = true ↔ (∑ b, s.rem b) % 2 = 1
  par : s.par = if s.toRes then P else oppParity P
  keep : ∀ c, P.visits c.parity = false → s.res c = res0 c
  zero : ∀ b, v b = 0 → s.rem b = 0

theorem ofDir_axis_ne (d : Dir n) (b : Fin n) (hb : b ≠ axis d) : CV.ofDir d b = 0 := by
  rw [ofDir_apply]; simp [hb]

theorem ShiftInv.step (h : lay.WF) (f : Site n → V) (v : CV n) (P : Parity)
    (res0 : Site n → Option V) (s : ShiftState n V)
    (hs : ShiftInv lay f v P res0 s) (d : Dir n) (hd : v (axis d) ≠ 0)
    (hev : P = .all ∨ ∀ b, v b ≠ 0 → lay.L b % 2 = 0) :
    ShiftInv lay f v P res0 (shiftStep lay d s) := by
  have hev' : s.par = .all ∨ lay.L (axis d) % 2 = 0 := by
    rcases hev with e | e
    · left; rw [hs.par, e]; split <;> rfl
    · exact Or.inr (e _ hd)
  obtain ⟨m, hm, hh⟩ := hs.moved
  refine ⟨⟨m + CV.ofDir d, ?_, ?_⟩, ?_, ?_, ?_, ?_⟩
  · simp only [shiftStep]; rw [subDir_eq, ← hm]; abel
  · simp only [shiftStep, oppParity_opp]
    cases ht : s.toRes
    · simp only [ShiftState.from, ht] at hh ⊢
      exact holds_shiftFrom lay h f m s.par _ _ d hev' hh
    · simp only [ShiftState.from, ht] at hh ⊢
      exact holds_shiftFrom lay h f m s.par _ _ d hev' hh
  · simp only [shiftStep]
    rw [subDir_eq]
    have hsum : (∑ b, (s.rem - CV.ofDir d) b) = (∑ b, s.rem b) - if isUp d then 1 else -1 := by
      simp only [Pi.sub_apply]; rw [Finset.sum_sub_distrib, sum_ofDir]
    rw [hsum]
    have ht := hs.target
    cases hr : s.toRes <;> cases isUp d <;> simp only [hr] at ht ⊢ <;> simp at ht ⊢ <;> omega
  · simp only [shiftStep]
    rw [hs.par]
    rcases Bool.eq_false_or_eq_true s.toRes with ht | ht <;> simp [ht, oppParity_opp]
  · intro c hc
    simp only [shiftStep]
    cases ht : s.toRes
    · exact hs.keep c hc
    · have hp := hs.par
      simp only [ht, if_true] at hp
      simp only [if_true, shiftFrom, hp, hc]
      exact hs.keep c hc
  · intro b hb
    have hne : b ≠ axis d := fun e => hd (e ▸ hb)
    simp only [shiftStep]
    rw [subDir_eq, Pi.sub_apply, ofDir_axis_ne d b hne, hs.zero b hb, sub_zero]

/-- The direction chosen for a component of given sign. -/
def towards (x : ℤ) (a : Fin n) : Dir n := if 0 < x then upDir a else oppDir (upDir a)

theorem axis_towards (x : ℤ) (a : Fin n) : axis (towards x a) = a := by
  unfold towards; split
  · exact axis_upDir a
  · rw [axis_oppDir, axis_upDir]

theorem ofDir_towards (x : ℤ) (a : Fin n) :
    CV.ofDir (towards x a) = fun b => if b = a then (if 0 < x then 1 else -1) else 0 := by
  funext b
  rw [ofDir_apply, axis_towards]
  by_cases hb : b = a
  · simp only [hb, if_true]
    unfold towards
    split
    · simp [isUp_upDir]
    · simp [isUp_oppDir, isUp_upDir]
  · simp [hb]

theorem shiftWhile_spec (h : lay.WF) (f : Site n → V) (v : CV n) (P : Parity)
    (res0 : Site n → Option V) (a : Fin n) (x : ℤ) (hv : v a ≠ 0)
    (hev : P = .all ∨ ∀ b, v b ≠ 0 → lay.L b % 2 = 0) (k : ℕ) :
    ∀ s : ShiftState n V, ShiftInv lay f v P res0 s → (s.rem a).natAbs = k →
      (0 < x ↔ 0 < s.rem a ∨ (s.rem a = 0 ∧ 0 < x)) →
      ShiftInv lay f v P res0 (shiftWhile lay a (towards x a) k s) ∧
      (shiftWhile lay a (towards x a) k s).rem = Function.update s.rem a 0 := by
  induction k with
  | zero =>
    intro s hs hk _
    refine ⟨hs, ?_⟩
    have : s.rem a = 0 := by omega
    simp only [shiftWhile]
    funext b
    by_cases hb : b = a
    · subst hb; simp [this]
    · simp [Function.update_of_ne hb]
  | succ k ih =>
    intro s hs hk hx
    have hne : s.rem a ≠ 0 := by omega
    simp only [shiftWhile, if_pos hne]
    have hst := hs.step lay h f v P res0 s (towards x a) (by rw [axis_towards]; exact hv) hev
    have hrem : (shiftStep lay (towards x a) s).rem =
        Function.update s.rem a (s.rem a - if 0 < x then 1 else -1) := by
      simp only [shiftStep]
      rw [subDir_eq, ofDir_towards]
      funext b
      by_cases hb : b = a
      · subst hb; simp
      · simp [hb]
    have hra : (shiftStep lay (towards x a) s).rem a = s.rem a - if 0 < x then 1 else -1 := by
      rw [hrem]; simp
    have := ih _ hst (by rw [hra]; split <;> omega) (by rw [hra]; split <;> omega)
    refine ⟨this.1, ?_⟩
    rw [this.2, hrem]; simp

theorem shiftAxis_spec (h : lay.WF) (f : Site n → V) (v : CV n) (P : Parity)
    (res0 : Site n → Option V) (a : Fin n)
    (hev : P = .all ∨ ∀ b, v b ≠ 0 → lay.L b % 2 = 0)
    (s : ShiftState n V) (hs : ShiftInv lay f v P res0 s) :
    ShiftInv lay f v P res0 (shiftAxis lay s a) ∧
      (shiftAxis lay s a).rem = Function.update s.rem a 0 := by
  unfold shiftAxis
  split
  · rename_i hne
    have hv : v a ≠ 0 := fun e => hne (hs.zero a e)
    exact shiftWhile_spec lay h f v P res0 a (s.rem a) hv hev _ s hs rfl (by omega)
  · rename_i hz
    simp only [ne_eq, not_not] at hz
    refine ⟨hs, ?_⟩
    rw [← hz]; simp

theorem shiftLoop_spec (h : lay.WF) (f : Site n → V) (v : CV n) (P : Parity)
    (res0 : Site n → Option V)
    (hev : P = .all ∨ ∀ b, v b ≠ 0 → lay.L b % 2 = 0) (as : List (Fin n)) :
    ∀ s : ShiftState n V, ShiftInv lay f v P res0 s →
      ShiftInv lay f v P res0 (as.foldl (shiftAxis lay) s) ∧
      ∀ b, (as.foldl (shiftAxis lay) s).rem b = if b ∈ as then 0 else s.rem b := by
  induction as with
  | nil => intro s hs; exact ⟨hs, fun b => by simp⟩
  | cons a as ih =>
    intro s hs
    obtain ⟨h1, h2⟩ := shiftAxis_spec lay h f v P res0 a hev s hs
    obtain ⟨h3, h4⟩ := ih _ h1
    refine ⟨h3, fun b => ?_⟩
    rw [List.foldl_cons, h4 b, h2]
    by_cases hb : b = a
    · subst hb; simp
    · simp [hb]

theorem normL1_parity (v : CV n) : (v.normL1) % 2 = (∑ b, v b) % 2 := by
  unfold CV.normL1
  rw [Finset.sum_int_mod, Finset.sum_int_mod (f := v)]
  congr 1
  apply Finset.sum_congr rfl
  intro b _
  rcases abs_cases (v b) with ⟨e, _⟩ | ⟨e, _⟩ <;> rw [e]
  omega

theorem normL1_nonneg (v : CV n) : 0 ≤ v.normL1 := Finset.sum_nonneg fun _ _ => abs_nonneg _

theorem normL1_zero_iff (v : CV n) : v.normL1 = 0 ↔ v = 0 := by
  unfold CV.normL1
  rw [Finset.sum_eq_zero_iff_of_nonneg (fun i _ => abs_nonneg _)]
  constructor
  · intro hz; funext i; simpa using hz i (Finset.mem_univ i)
  · intro hz; subst hz; simp

theorem firstMove_spec (ready : Dir n → Bool) (v : CV n) (d : Dir n) (hd : firstMove ready v = some d) :
    ∃ a, v a ≠ 0 ∧ d = towards (v a) a := by
  unfold firstMove at hd
  obtain ⟨a, _, ha⟩ := List.exists_of_findSome?_eq_some hd
  refine ⟨a, ?_⟩
  unfold towards
  split at ha
  · rename_i h1
    exact ⟨by omega, by rw [if_pos h1.1]; exact (Option.some.inj ha).symm⟩
  · split at ha
    · rename_i h1
      exact ⟨by omega, by rw [if_neg (by omega)]; exact (Option.some.inj ha).symm⟩
    · cases ha

theorem firstMove_exists (v : CV n) (hv : v ≠ 0) : (firstMove (fun _ => true) v).isSome := by
  by_contra hn
  apply hv
  have hn' : firstMove (fun _ => true) v = none := by simpa using hn
  unfold firstMove at hn'
  rw [List.findSome?_eq_none_iff] at hn'
  funext b
  have := hn' b (List.mem_finRange b)
  simp only [Pi.zero_apply]
  by_contra hb
  simp only [and_true] at this
  split at this
  · cases this
  · split at this
    · cases this
    · omega

/-- A displacement of length one is the first move. -/
theorem normL1_one (v : CV n) (hv : v.normL1 = 1) (a : Fin n) (ha : v a ≠ 0) :
    v = CV.ofDir (towards (v a) a) := by
  rw [ofDir_towards]
  have h1 : |v a| + ∑ b ∈ Finset.univ \ {a}, |v b| = 1 := by
    rw [← hv]; unfold CV.normL1
    rw [← Finset.sum_sdiff (Finset.subset_univ {a}), Finset.sum_singleton, add_comm]
  have h2 : 0 ≤ ∑ b ∈ Finset.univ \ {a}, |v b| := Finset.sum_nonneg fun _ _ => abs_nonneg _
  have h3 : 0 < |v a| := abs_pos.2 ha
  have h4 : ∑ b ∈ Finset.univ \ {a}, |v b| = 0 := by omega
  rw [Finset.sum_eq_zero_iff_of_nonneg (fun i _ => abs_nonneg _)] at h4
  funext b
  by_cases hb : b = a
  · subst hb
    simp only [if_true]
    rcases abs_cases (v b) with ⟨e, _⟩ | ⟨e, _⟩ <;> split <;> omega
  · rw [if_neg hb]
    have := h4 b (by simp [hb])
    simpa using this

theorem shift_spec (h : lay.WF) (ready : Dir n → Bool) (f : Site n → V) (v : CV n)
    (res : Site n → Option V) (P : Parity)
    (hev : P = .all ∨ ∀ b, v b ≠ 0 → lay.L b % 2 = 0) :
    ∃ g, shift lay ready f v res P = some g ∧ HoldsShift lay f v P g ∧
      ∀ c, P.visits c.parity = false → g c = res c := by
  unfold shift
  simp only
  split
  · rename_i hz
    rw [normL1_zero_iff] at hz
    subst hz
    refine ⟨_, rfl, fun c hc hv => ?_, fun c hc => by simp [hc]⟩
    simp only [hv, if_true]
    rw [shiftAt_zero lay c hc]
  · rename_i hz
    have hv0 : v ≠ 0 := fun e => hz ((normL1_zero_iff v).2 e)
    have hmd : ∃ a, v a ≠ 0 ∧ chooseMove ready v = some (towards (v a) a) := by
      unfold chooseMove
      cases hr : firstMove ready v with
      | some d =>
        obtain ⟨a, ha, hd⟩ := firstMove_spec ready v d hr
        exact ⟨a, ha, by simp [hd]⟩
      | none =>
        have := firstMove_exists v hv0
        obtain ⟨d, hd⟩ := Option.isSome_iff_exists.1 this
        obtain ⟨a, ha, hda⟩ := firstMove_spec _ v d hd
        exact ⟨a, ha, by simp [hd, hda]⟩
    obtain ⟨a, ha, hmd⟩ := hmd
    rw [hmd, Option.map_some]
    refine ⟨_, rfl, ?_⟩
    have hnn := normL1_nonneg v
    have hpar := normL1_parity v
    have htm : v.normL1.tmod 2 = v.normL1 % 2 := by rw [Int.tmod_eq_emod_of_nonneg hnn]
    rw [htm]
    have hev' : ∀ q : Parity, (q = P ∨ q = oppParity P) →
        q = .all ∨ lay.L (axis (towards (v a) a)) % 2 = 0 := by
      intro q hq
      rcases hev with e | e
      · left; subst e; rcases hq with e | e <;> rw [e]; rfl
      · right; rw [axis_towards]; exact e a ha
    have h0 : ∀ q, HoldsShift lay f 0 q (fun c => some (f c)) := fun q c hc _ => by
      simp only [shiftAt_zero lay c hc]
    split
    · rename_i h1
      have hnz : ¬ v.normL1 % 2 = 0 := by omega
      rw [if_neg hnz]
      refine ⟨?_, fun c hc => by simp [shiftFrom, hc]⟩
      have := holds_shiftFrom lay h f 0 P (fun c => some (f c)) res (towards (v a) a)
        (hev' P (Or.inl rfl)) (h0 _)
      rw [zero_add, ← normL1_one v h1 a ha] at this
      exact this
    · rename_i h1
      -- the state before the loop
      set s : ShiftState n V :=
        { res := if (decide (v.normL1 % 2 = 0)) = true then res
            else shiftFrom lay res (fun c => some (f c)) (towards (v a) a)
              (if v.normL1 % 2 = 0 then oppParity P else P)
          r1 := if (decide (v.normL1 % 2 = 0)) = true then
              shiftFrom lay (fun _ => none) (fun c => some (f c)) (towards (v a) a)
                (if v.normL1 % 2 = 0 then oppParity P else P)
            else fun _ => none
          toRes := decide (v.normL1 % 2 = 0)
          par := oppParity (if v.normL1 % 2 = 0 then oppParity P else P)
          rem := v.subDir (towards (v a) a) } with hsdef
      have hsum : (∑ b, s.rem b) = (∑ b, v b) - if 0 < v a then 1 else -1 := by
        simp only [hsdef]
        rw [subDir_eq, ofDir_towards]
        simp only [Pi.sub_apply]
        rw [Finset.sum_sub_distrib, Finset.sum_ite_eq']
        simp
      have hinv : ShiftInv lay f v P res s := by
        refine ⟨⟨CV.ofDir (towards (v a) a), ?_, ?_⟩, ?_, ?_, ?_, ?_⟩
        · simp only [hsdef]; rw [subDir_eq]; abel
        · simp only [hsdef, oppParity_opp, ShiftState.from]
          by_cases he : v.normL1 % 2 = 0
          · simp only [he, decide_true, if_true]
            have := holds_shiftFrom lay h f 0 (oppParity P) (fun c => some (f c)) (fun _ => none)
              (towards (v a) a) (hev' _ (Or.inr rfl)) (h0 _)
            rwa [zero_add] at this
          · simp only [he, decide_false, Bool.false_eq_true, if_false]
            have := holds_shiftFrom lay h f 0 P (fun c => some (f c)) res
              (towards (v a) a) (hev' _ (Or.inl rfl)) (h0 _)
            rwa [zero_add] at this
        · rw [hsum]
          simp only [hsdef, decide_eq_true_eq]
          split <;> omega
        · simp only [hsdef, decide_eq_true_eq]
          split <;> simp [oppParity_opp]
        · intro c hc
          simp only [hsdef]
          by_cases he : v.normL1 % 2 = 0
          · simp [he]
          · simp [he, shiftFrom, hc]
        · intro b hb
          simp only [hsdef]
          rw [subDir_eq, ofDir_towards, Pi.sub_apply, hb]
          have : b ≠ a := fun e => ha (e ▸ hb)
          simp [this]
      obtain ⟨k1, k2⟩ := shiftLoop_spec lay h f v P res hev (List.finRange n) s hinv
      have hrem : ((List.finRange n).foldl (shiftAxis lay) s).rem = 0 := by
        funext b; rw [k2 b]; simp
      set t := (List.finRange n).foldl (shiftAxis lay) s with ht
      have htr : t.toRes = false := by
        have := k1.target
        rw [hrem] at this
        simpa using this
      obtain ⟨m, hm, hh⟩ := k1.moved
      rw [hrem, add_zero] at hm
      subst hm
      have hp := k1.par
      rw [htr] at hp
      simp only [Bool.false_eq_true, if_false] at hp
      rw [hp, oppParity_opp] at hh
      simp only [ShiftState.from, htr] at hh
      exact ⟨hh, k1.keep⟩

end Hila
