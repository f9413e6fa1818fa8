import Verif.Model.VecLayout
import Verif.Lemmas.Gather
import Verif.Lemmas.Antiper

/-! The site index of the subnode layout: lanes, vectors, bijectivity, order on faces. -/

namespace Hila

open BigOperators

/-- Conditions on the division of one node of size `b` into subnodes, as `setup_layout` (setup_layout_vector.cpp:170-216) chooses it: the division
is even, subnodes have even size in the divided directions, the merged direction is divided, and at least two directions have even subnode
size. -/
structure SubOK {n : ℕ} (b : Site n) (sd : SubDiv n) : Prop where
  pos : ∀ d, 0 < b d
  dvd : ∀ d, sd.div d ∣ b d
  even : ∀ d, 1 < sd.div d → 2 ∣ b d / sd.div d
  merged : 2 ∣ sd.div sd.mdir
  two : ∃ b₁ b₂, b₁ ≠ b₂ ∧ 2 ∣ b b₁ / sd.div b₁ ∧ 2 ∣ b b₂ / sd.div b₂

theorem foldr_lex_from {n : ℕ} (s c : Fin n → ℕ) (z : ℕ) :
    (List.finRange n).foldr (fun dir i => i * s dir + c dir) z = lex s c + (∏ d, s d) * z := by
  induction n generalizing z with
  | zero => simp [lex]
  | succ n ih =>
    rw [List.finRange_succ, List.foldr_cons, List.foldr_map, lex, Fin.prod_univ_succ]
    have := ih (Fin.tail s) (Fin.tail c) z
    simp only [Fin.tail] at this ⊢
    rw [this]
    ring

/-- A fold over pairs whose components do not interact. -/
theorem foldr_pair {α : Type} (f g : α → ℕ → ℕ) (l : List α) (x y : ℕ) :
    l.foldr (fun a (p : ℕ × ℕ) => (f a p.1, g a p.2)) (x, y) = (l.foldr f x, l.foldr g y) := by
  induction l with
  | nil => rfl
  | cons a l ih => rw [List.foldr_cons, List.foldr_cons, List.foldr_cons, ih]

/-- The interleaved subnode number along the merged direction. -/
def ilv (D s : ℕ) : ℕ := s / 2 + (s % 2) * (D / 2)

theorem ilv_lt {D s : ℕ} (hD : 2 ∣ D) (hs : s < D) : ilv D s < D := by
  obtain ⟨E, rfl⟩ := hD
  unfold ilv
  rw [Nat.mul_div_cancel_left E (by omega)]
  rcases Nat.mod_two_eq_zero_or_one s with h | h <;> rw [h] <;> omega

theorem ilv_inj {D s t : ℕ} (hD : 2 ∣ D) (hs : s < D) (ht : t < D) (h : ilv D s = ilv D t) : s = t := by
  obtain ⟨E, rfl⟩ := hD
  unfold ilv at h
  rw [Nat.mul_div_cancel_left E (by omega)] at h
  rcases Nat.mod_two_eq_zero_or_one s with h1 | h1 <;> rcases Nat.mod_two_eq_zero_or_one t with h2 | h2 <;> rw [h1, h2] at h <;> omega

/-- Lane of the subnode with numbers `q`, with top digit `x` for the merged direction. -/
def laneOf {n : ℕ} (sd : SubDiv n) (q : Site n) (x : ℕ) : ℕ :=
  lex (Function.update sd.div sd.mdir 1) (Function.update q sd.mdir 0) + (∏ d, Function.update sd.div sd.mdir 1 d) * x

/-- Number of subnodes apart from the merged direction. -/
def restN {n : ℕ} (sd : SubDiv n) : ℕ := ∏ d, Function.update sd.div sd.mdir 1 d

theorem number_eq {n : ℕ} (sd : SubDiv n) : sd.number = restN sd * sd.div sd.mdir := by
  unfold SubDiv.number restN
  rw [Finset.prod_update_of_mem (Finset.mem_univ _), one_mul, ← Finset.prod_sdiff (Finset.subset_univ {sd.mdir}), Finset.prod_singleton]

theorem laneRest_lt {n : ℕ} (sd : SubDiv n) (q : Site n) (hq : ∀ d, q d < sd.div d) :
    lex (Function.update sd.div sd.mdir 1) (Function.update q sd.mdir 0) < restN sd := by
  apply lex_lt
  intro d
  by_cases hd : d = sd.mdir
  · subst hd; rw [Function.update_self, Function.update_self]; exact Nat.one_pos
  · rw [Function.update_of_ne hd, Function.update_of_ne hd]; exact hq d

theorem laneOf_lt {n : ℕ} (sd : SubDiv n) (q : Site n) (x D : ℕ) (hq : ∀ d, q d < sd.div d) (hx : x < D) : laneOf sd q x < restN sd * D := by
  have h1 := laneRest_lt sd q hq
  unfold laneOf
  change _ + restN sd * x < _
  calc _ < restN sd + restN sd * x := by omega
    _ = restN sd * (x + 1) := by ring
    _ ≤ restN sd * D := Nat.mul_le_mul_left _ hx

theorem laneOf_inj {n : ℕ} (sd : SubDiv n) (q q' : Site n) (x x' : ℕ) (hq : ∀ d, q d < sd.div d) (hq' : ∀ d, q' d < sd.div d)
    (h : laneOf sd q x = laneOf sd q' x') : x = x' ∧ ∀ d, d ≠ sd.mdir → q d = q' d := by
  have h1 := laneRest_lt sd q hq
  have h2 := laneRest_lt sd q' hq'
  unfold laneOf at h
  change _ + restN sd * x = _ + restN sd * x' at h
  have hpos : 0 < restN sd := by omega
  have e1 : x = x' := by
    have := congrArg (· / restN sd) h
    simpa [Nat.add_mul_div_left _ _ hpos, Nat.div_eq_of_lt h1, Nat.div_eq_of_lt h2] using this
  subst e1
  refine ⟨rfl, fun d hd => ?_⟩
  have e2 : lex (Function.update sd.div sd.mdir 1) (Function.update q sd.mdir 0) =
      lex (Function.update sd.div sd.mdir 1) (Function.update q' sd.mdir 0) := by omega
  have hr : ∀ p : Site n, (∀ d, p d < sd.div d) → ∀ d, Function.update p sd.mdir 0 d < Function.update sd.div sd.mdir 1 d := by
    intro p hp d
    by_cases hd : d = sd.mdir
    · subst hd; rw [Function.update_self, Function.update_self]; exact Nat.one_pos
    · rw [Function.update_of_ne hd, Function.update_of_ne hd]; exact hp d
  have := congrFun (lex_inj _ _ _ (hr q hq) (hr q' hq') e2) d
  rwa [Function.update_of_ne hd, Function.update_of_ne hd] at this

section Box
variable {n : ℕ} {a b : Site n} {sd : SubDiv n}

/-- Size of the subnodes. -/
def subSz (b : Site n) (sd : SubDiv n) : Site n := fun d => b d / sd.div d

/-- Number of the subnode of `c`, and place of `c` in it as a site of the first subnode. -/
def subQ (a b : Site n) (sd : SubDiv n) (c : Site n) : Site n := fun d => (c d - a d) / subSz b sd d

def subIn (a b : Site n) (sd : SubDiv n) (c : Site n) : Site n := fun d => a d + (c d - a d) % subSz b sd d

theorem SubOK.div_pos (h : SubOK b sd) (d : Fin n) : 0 < sd.div d := Nat.pos_of_dvd_of_pos (h.dvd d) (h.pos d)

theorem SubOK.sub_pos (h : SubOK b sd) (d : Fin n) : 0 < subSz b sd d :=
  Nat.div_pos (Nat.le_of_dvd (h.pos d) (h.dvd d)) (h.div_pos d)

theorem SubOK.sub_mul (h : SubOK b sd) (d : Fin n) : subSz b sd d * sd.div d = b d := Nat.div_mul_cancel (h.dvd d)

theorem subQ_lt (h : SubOK b sd) {c : Site n} (hc : InBox a b c) (d : Fin n) : subQ a b sd c d < sd.div d := by
  unfold subQ
  rw [Nat.div_lt_iff_lt_mul (h.sub_pos d), mul_comm, h.sub_mul d]
  have := hc d; omega

theorem subIn_box (h : SubOK b sd) (c : Site n) : InBox a (subSz b sd) (subIn a b sd c) := by
  intro d
  have := Nat.mod_lt (c d - a d) (h.sub_pos d)
  unfold subIn; omega

/-- `c` has the parity of its place in the subnode. -/
theorem subIn_parity (h : SubOK b sd) {c : Site n} (hc : InBox a b c) : (∑ d, subIn a b sd c d) % 2 = (∑ d, c d) % 2 := by
  have key : ∀ d, subIn a b sd c d % 2 = c d % 2 := by
    intro d
    have h1 := Nat.div_add_mod (c d - a d) (subSz b sd d)
    have hq := subQ_lt h hc d
    have hcd := hc d
    unfold subIn
    by_cases hd : 1 < sd.div d
    · obtain ⟨k, hk⟩ := h.even d hd
      change subSz b sd d = 2 * k at hk
      have : subSz b sd d * ((c d - a d) / subSz b sd d) = 2 * (k * ((c d - a d) / subSz b sd d)) := by rw [hk]; ring
      omega
    · have : (c d - a d) / subSz b sd d = 0 := by
        unfold subQ at hq
        generalize (c d - a d) / subSz b sd d = z at hq
        omega
      rw [this] at h1
      omega
  rw [Finset.sum_nat_mod, Finset.sum_congr rfl fun d _ => key d, ← Finset.sum_nat_mod]

theorem SubOK.prod_even (h : SubOK b sd) : 2 ∣ ∏ d, subSz b sd d := by
  obtain ⟨b1, _, _, h1, _⟩ := h.two
  exact dvd_trans h1 (Finset.dvd_prod_of_mem (subSz b sd) (Finset.mem_univ b1))

theorem SubOK.number_pos (h : SubOK b sd) : 0 < sd.number := Finset.prod_pos fun d _ => h.div_pos d

theorem SubOK.vol (h : SubOK b sd) : (∏ d, subSz b sd d) * sd.number = ∏ d, b d := by
  unfold SubDiv.number
  rw [← Finset.prod_mul_distrib]
  exact Finset.prod_congr rfl fun d _ => h.sub_mul d

theorem SubOK.evens (h : SubOK b sd) : (NodeInfo.ofBox a b).evensites / sd.number = (NodeInfo.ofBox a (subSz b sd)).evensites := by
  obtain ⟨k, hk⟩ := h.prod_even
  have hv := h.vol
  rw [ofBox_evensites, ofBox_evensites, hk]
  rw [hk] at hv
  have e : ∏ d, b d = 2 * (k * sd.number) := by rw [← hv]; ring
  rw [e, if_neg (by omega), if_neg (by omega), Nat.mul_div_cancel_left _ (by omega), Nat.mul_div_cancel_left _ (by omega), add_zero,
    add_zero, Nat.mul_div_cancel _ h.number_pos]

/-- The index is the lane plus the number of lanes times the standard index of the place in the subnode. -/
theorem siteIndexSub_eq (h : SubOK b sd) {c : Site n} (hc : InBox a b c) :
    (NodeInfo.ofBox a b).siteIndexSub sd c = laneOf sd (subQ a b sd c) (ilv (sd.div sd.mdir) (subQ a b sd c sd.mdir)) +
      sd.number * (NodeInfo.ofBox a (subSz b sd)).siteIndex (subIn a b sd c) := by
  have hlog : (NodeInfo.ofBox a (subSz b sd)).logicalIndex (subIn a b sd c) = lex (subSz b sd) (fun d => (c d - a d) % subSz b sd d) := by
    rw [logicalIndex_eq_lex, ofBox_size, ofBox_min]
    congr 1
    funext d
    unfold subIn; omega
  unfold NodeInfo.siteIndexSub
  dsimp only
  rw [ofBox_size, ofBox_min]
  rw [foldr_pair (fun dir x => if dir ≠ sd.mdir then x * sd.div dir + (c dir - a dir) / (b dir / sd.div dir) else x)
    (fun dir x => x * (b dir / sd.div dir) + (c dir - a dir) % (b dir / sd.div dir))]
  have e1 : (fun dir (x : ℕ) => if dir ≠ sd.mdir then x * sd.div dir + (c dir - a dir) / (b dir / sd.div dir) else x) =
      fun dir x => x * Function.update sd.div sd.mdir 1 dir + Function.update (subQ a b sd c) sd.mdir 0 dir := by
    funext dir x
    by_cases hd : dir = sd.mdir
    · subst hd; simp
    · rw [if_pos hd, Function.update_of_ne hd, Function.update_of_ne hd]; rfl
  rw [e1, foldr_lex_from, foldr_eq_lex]
  dsimp only
  rw [siteIndex_eq, hlog, h.evens]
  congr 2
  have hp := subIn_parity h hc
  by_cases hpe : c.parity = .even
  · rw [if_pos hpe]; rw [Site.parity_even_iff] at hpe; rw [if_pos (by omega)]; rfl
  · rw [if_neg hpe]; rw [Site.parity_even_iff] at hpe; rw [if_neg (by omega)]; rfl

theorem lane_lt_number (h : SubOK b sd) {c : Site n} (hc : InBox a b c) :
    laneOf sd (subQ a b sd c) (ilv (sd.div sd.mdir) (subQ a b sd c sd.mdir)) < sd.number := by
  rw [number_eq]
  exact laneOf_lt sd _ _ _ (subQ_lt h hc) (ilv_lt h.merged (subQ_lt h hc _))

/-! ### Lanes and vectors, for both vector sizes -/

theorem SubOK.restN_pos (h : SubOK b sd) : 0 < restN sd := by
  refine Finset.prod_pos fun d _ => ?_
  by_cases hd : d = sd.mdir
  · subst hd; rw [Function.update_self]; exact Nat.one_pos
  · rw [Function.update_of_ne hd]; exact h.div_pos d

theorem SubOK.vecSize_dbl (h : SubOK b sd) : sd.vecSize true = restN sd * (sd.div sd.mdir / 2) := by
  unfold SubDiv.vecSize
  rw [if_pos rfl, number_eq, Nat.mul_div_assoc _ h.merged]

theorem SubOK.vecSize_pos (h : SubOK b sd) (dbl : Bool) : 0 < sd.vecSize dbl := by
  cases dbl
  · exact h.number_pos
  · rw [h.vecSize_dbl]
    have := h.div_pos sd.mdir
    have := h.merged
    exact Nat.mul_pos h.restN_pos (by omega)

/-- Size of the subnodes of the vector layout. -/
def vSub (b : Site n) (sd : SubDiv n) (dbl : Bool) : Site n := if dbl then Function.update (subSz b sd) sd.mdir (subSz b sd sd.mdir * 2) else subSz b sd

theorem subnodeSize_eq (dbl : Bool) : (NodeInfo.ofBox a b).subnodeSize sd dbl = vSub b sd dbl := by
  unfold NodeInfo.subnodeSize vSub
  rw [ofBox_size]
  rfl

theorem SubOK.vSub_mul (h : SubOK b sd) (dbl : Bool) (d : Fin n) : vSub b sd dbl d * sd.subdivisions dbl d = b d := by
  unfold vSub SubDiv.subdivisions
  cases dbl
  · exact h.sub_mul d
  · simp only [if_true]
    by_cases hd : d = sd.mdir
    · subst hd
      rw [Function.update_self, Function.update_self, mul_assoc, Nat.mul_div_cancel' h.merged, h.sub_mul]
    · rw [Function.update_of_ne hd, Function.update_of_ne hd, h.sub_mul]

theorem SubOK.vSub_pos (h : SubOK b sd) (dbl : Bool) (d : Fin n) : 0 < vSub b sd dbl d := by
  have e := h.vSub_mul dbl d
  have hp := h.pos d
  rcases Nat.eq_zero_or_pos (vSub b sd dbl d) with h0 | h0
  · rw [h0, zero_mul] at e; omega
  · exact h0

theorem SubOK.subdiv_pos (h : SubOK b sd) (dbl : Bool) (d : Fin n) : 0 < sd.subdivisions dbl d := by
  have e := h.vSub_mul dbl d
  have hp := h.pos d
  rcases Nat.eq_zero_or_pos (sd.subdivisions dbl d) with h0 | h0
  · rw [h0, mul_zero] at e; omega
  · exact h0

theorem SubOK.vSub_even (h : SubOK b sd) (dbl : Bool) (d : Fin n) (hd : 1 < sd.subdivisions dbl d) : 2 ∣ vSub b sd dbl d := by
  unfold vSub
  cases dbl
  · exact h.even d hd
  · simp only [if_true]
    by_cases hm : d = sd.mdir
    · subst hm; rw [Function.update_self]; exact Dvd.intro_left _ rfl
    · rw [Function.update_of_ne hm]
      unfold SubDiv.subdivisions at hd
      rw [if_pos rfl, Function.update_of_ne hm] at hd
      exact h.even d hd

theorem SubOK.vSub_two (h : SubOK b sd) (dbl : Bool) (A : Fin n) : ∃ d, d ≠ A ∧ 2 ∣ vSub b sd dbl d := by
  obtain ⟨b1, b2, hne, h1, h2⟩ := h.two
  have key : ∀ d, 2 ∣ b d / sd.div d → 2 ∣ vSub b sd dbl d := by
    intro d hd
    unfold vSub
    cases dbl
    · exact hd
    · simp only [if_true]
      by_cases hm : d = sd.mdir
      · subst hm; rw [Function.update_self]; exact Dvd.intro_left _ rfl
      · rw [Function.update_of_ne hm]; exact hd
  by_cases hA : b1 = A
  · exact ⟨b2, fun e => hne (hA.trans e.symm), key b2 h2⟩
  · exact ⟨b1, hA, key b1 h1⟩

/-- Number of the subnode in the vector layout. -/
def vQ (a b : Site n) (sd : SubDiv n) (dbl : Bool) (c : Site n) : Site n := fun d => (c d - a d) / vSub b sd dbl d

/-- Place in the subnode in the vector layout. -/
def vR (a b : Site n) (sd : SubDiv n) (dbl : Bool) (c : Site n) : Site n := fun d => (c d - a d) % vSub b sd dbl d

theorem vQ_lt (h : SubOK b sd) (dbl : Bool) {c : Site n} (hc : InBox a b c) (d : Fin n) : vQ a b sd dbl c d < sd.subdivisions dbl d := by
  unfold vQ
  rw [Nat.div_lt_iff_lt_mul (h.vSub_pos dbl d), mul_comm, h.vSub_mul]
  have := hc d; omega

theorem vR_lt (h : SubOK b sd) (dbl : Bool) (c : Site n) (d : Fin n) : vR a b sd dbl c d < vSub b sd dbl d := Nat.mod_lt _ (h.vSub_pos dbl d)

/-- Subnode and place determine the site. -/
theorem site_of_QR (dbl : Bool) {c : Site n} (hc : InBox a b c) (d : Fin n) :
    c d = a d + (vSub b sd dbl d * vQ a b sd dbl c d + vR a b sd dbl c d) := by
  unfold vQ vR
  rw [Nat.div_add_mod]
  have := hc d; omega

theorem QR_ext (dbl : Bool) {c c' : Site n} (hc : InBox a b c) (hc' : InBox a b c') (hq : vQ a b sd dbl c = vQ a b sd dbl c')
    (hr : vR a b sd dbl c = vR a b sd dbl c') : c = c' := by
  funext d
  rw [site_of_QR (sd := sd) dbl hc d, site_of_QR (sd := sd) dbl hc' d, hq, hr]

/-- The lane as a function of the subnode. -/
def vLane (sd : SubDiv n) (dbl : Bool) (q : Site n) : ℕ :=
  laneOf sd q (if dbl then q sd.mdir else ilv (sd.div sd.mdir) (q sd.mdir))

theorem subdiv_le (dbl : Bool) (d : Fin n) : sd.subdivisions dbl d ≤ sd.div d := by
  unfold SubDiv.subdivisions
  cases dbl
  · exact le_refl _
  · simp only [if_true]
    by_cases hm : d = sd.mdir
    · subst hm; rw [Function.update_self]; exact Nat.div_le_self _ _
    · rw [Function.update_of_ne hm]

theorem vLane_lt (h : SubOK b sd) (dbl : Bool) {q : Site n} (hq : ∀ d, q d < sd.subdivisions dbl d) : vLane sd dbl q < sd.vecSize dbl := by
  have hq' : ∀ d, q d < sd.div d := fun d => lt_of_lt_of_le (hq d) (subdiv_le dbl d)
  unfold vLane
  cases dbl
  · show _ < sd.number
    rw [number_eq]
    exact laneOf_lt sd _ _ _ hq' (ilv_lt h.merged (hq' _))
  · rw [h.vecSize_dbl]
    refine laneOf_lt sd _ _ _ hq' ?_
    have := hq sd.mdir
    unfold SubDiv.subdivisions at this
    rwa [if_pos rfl, Function.update_self] at this

theorem vLane_inj (h : SubOK b sd) (dbl : Bool) {q q' : Site n} (hq : ∀ d, q d < sd.subdivisions dbl d) (hq' : ∀ d, q' d < sd.subdivisions dbl d)
    (he : vLane sd dbl q = vLane sd dbl q') : q = q' := by
  have hd : ∀ d, q d < sd.div d := fun d => lt_of_lt_of_le (hq d) (subdiv_le dbl d)
  have hd' : ∀ d, q' d < sd.div d := fun d => lt_of_lt_of_le (hq' d) (subdiv_le dbl d)
  obtain ⟨h1, h2⟩ := laneOf_inj sd q q' _ _ hd hd' he
  funext d
  by_cases hm : d = sd.mdir
  · subst hm
    cases dbl
    · exact ilv_inj h.merged (hd _) (hd' _) h1
    · exact h1
  · exact h2 d hm

theorem vLane_zero (dbl : Bool) : vLane sd dbl (fun _ => 0) = 0 := by
  have e : Function.update (fun _ => 0 : Site n) sd.mdir 0 = fun _ => 0 := by funext d; by_cases hd : d = sd.mdir <;> simp [Function.update_apply, hd]
  have h0 : ∀ (m : ℕ) (s : Fin m → ℕ), lex s (fun _ => 0) = 0 := by
    intro m
    induction m with
    | zero => intro s; rfl
    | succ m ih => intro s; rw [lex]; have := ih (Fin.tail s); simp only [Fin.tail_def] at this ⊢; rw [this, mul_zero, add_zero]
  unfold vLane laneOf
  rw [e, h0]
  cases dbl <;> simp [ilv]

theorem vQ_subQ (c : Site n) (d : Fin n) :
    vQ a b sd true c d = if d = sd.mdir then subQ a b sd c d / 2 else subQ a b sd c d := by
  unfold vQ subQ vSub
  simp only [if_true]
  by_cases hm : d = sd.mdir
  · subst hm; rw [Function.update_self, if_pos rfl, Nat.div_div_eq_div_mul]
  · rw [Function.update_of_ne hm, if_neg hm]

theorem laneOf_congr {q q' : Site n} (hq : ∀ d, d ≠ sd.mdir → q d = q' d) (x : ℕ) : laneOf sd q x = laneOf sd q' x := by
  unfold laneOf
  congr 2
  funext d
  by_cases hm : d = sd.mdir
  · subst hm; rw [Function.update_self, Function.update_self]
  · rw [Function.update_of_ne hm, Function.update_of_ne hm, hq d hm]

/-- Lane and vector of a site. -/
theorem index_mod (h : SubOK b sd) (dbl : Bool) {c : Site n} (hc : InBox a b c) :
    (NodeInfo.ofBox a b).siteIndexSub sd c % sd.vecSize dbl = vLane sd dbl (vQ a b sd dbl c) ∧
    (NodeInfo.ofBox a b).siteIndexSub sd c / sd.vecSize dbl = (if dbl then 2 * (NodeInfo.ofBox a (subSz b sd)).siteIndex (subIn a b sd c) +
        subQ a b sd c sd.mdir % 2 else (NodeInfo.ofBox a (subSz b sd)).siteIndex (subIn a b sd c)) := by
  rw [siteIndexSub_eq h hc]
  set S := (NodeInfo.ofBox a (subSz b sd)).siteIndex (subIn a b sd c)
  have hl := lane_lt_number h hc
  cases dbl
  · show (_ + sd.number * S) % sd.number = _ ∧ _
    rw [Nat.add_mul_mod_self_left, Nat.mod_eq_of_lt hl]
    refine ⟨rfl, ?_⟩
    show (_ + sd.number * S) / sd.number = S
    rw [Nat.add_mul_div_left _ _ h.number_pos, Nat.div_eq_of_lt hl, zero_add]
  · have hV := h.vecSize_pos true
    have hN : sd.number = sd.vecSize true * 2 := by
      rw [h.vecSize_dbl, number_eq, mul_assoc, Nat.div_mul_cancel h.merged]
    set q := subQ a b sd c with hqdef
    have hq : ∀ d, q d < sd.div d := subQ_lt h hc
    have hlane : laneOf sd q (ilv (sd.div sd.mdir) (q sd.mdir)) = laneOf sd q (q sd.mdir / 2) + sd.vecSize true * (q sd.mdir % 2) := by
      unfold laneOf ilv
      rw [h.vecSize_dbl]
      change _ + restN sd * _ = _ + restN sd * _ + _
      ring
    have hlt : laneOf sd q (q sd.mdir / 2) < sd.vecSize true := by
      rw [h.vecSize_dbl]
      refine laneOf_lt sd _ _ _ hq ?_
      have := hq sd.mdir
      have := h.merged
      omega
    have e : laneOf sd q (ilv (sd.div sd.mdir) (q sd.mdir)) + sd.number * S =
        laneOf sd q (q sd.mdir / 2) + sd.vecSize true * (q sd.mdir % 2 + 2 * S) := by
      rw [hlane, hN]; ring
    rw [e, Nat.add_mul_mod_self_left, Nat.mod_eq_of_lt hlt, Nat.add_mul_div_left _ _ hV, Nat.div_eq_of_lt hlt]
    constructor
    · unfold vLane
      simp only [if_true]
      rw [vQ_subQ, if_pos rfl, ← hqdef]
      exact laneOf_congr (fun d hd => by rw [vQ_subQ, if_neg hd]) _
    · simp only [if_true]; omega

/-- Two sites are in the same vector iff they have the same place in their subnodes. -/
theorem vec_eq_iff (h : SubOK b sd) (dbl : Bool) {c c' : Site n} (hc : InBox a b c) (hc' : InBox a b c') :
    (NodeInfo.ofBox a b).siteIndexSub sd c / sd.vecSize dbl = (NodeInfo.ofBox a b).siteIndexSub sd c' / sd.vecSize dbl ↔
      vR a b sd dbl c = vR a b sd dbl c' := by
  rw [(index_mod h dbl hc).2, (index_mod h dbl hc').2]
  have hin : ∀ x y : Site n, (NodeInfo.ofBox a (subSz b sd)).siteIndex (subIn a b sd x) = (NodeInfo.ofBox a (subSz b sd)).siteIndex (subIn a b sd y) ↔
      ∀ d, (x d - a d) % subSz b sd d = (y d - a d) % subSz b sd d := by
    intro x y
    constructor
    · intro he d
      have := congrFun (siteIndex_inj _ _ _ _ (subIn_box h x) (subIn_box h y) he) d
      unfold subIn at this; omega
    · intro he
      congr 1
      funext d
      unfold subIn; rw [he d]
  cases dbl
  · simp only [Bool.false_eq_true, if_false]
    rw [hin]
    exact ⟨fun he => funext he, fun he d => congrFun he d⟩
  · simp only [if_true]
    constructor
    · intro he
      have h1 : subQ a b sd c sd.mdir % 2 = subQ a b sd c' sd.mdir % 2 := by omega
      have h2 := (hin c c').1 (by omega)
      funext d
      unfold vR vSub
      simp only [if_true]
      by_cases hm : d = sd.mdir
      · subst hm
        rw [Function.update_self]
        unfold subQ at h1
        rw [Nat.mod_mul, Nat.mod_mul, h2, h1]
      · rw [Function.update_of_ne hm]; exact h2 d
    · intro he
      have hm : ∀ d, (c d - a d) % vSub b sd true d = (c' d - a d) % vSub b sd true d := fun d => congrFun he d
      have h3 := hm sd.mdir
      unfold vSub at h3
      rw [if_pos rfl, Function.update_self, Nat.mod_mul, Nat.mod_mul] at h3
      have hp := h.sub_pos sd.mdir
      have l1 := Nat.mod_lt (c sd.mdir - a sd.mdir) hp
      have l2 := Nat.mod_lt (c' sd.mdir - a sd.mdir) hp
      have e1 : (c sd.mdir - a sd.mdir) % subSz b sd sd.mdir = (c' sd.mdir - a sd.mdir) % subSz b sd sd.mdir := by
        have := congrArg (· % subSz b sd sd.mdir) h3
        simpa [Nat.add_mul_mod_self_left] using this
      have e2 : subQ a b sd c sd.mdir % 2 = subQ a b sd c' sd.mdir % 2 := by
        rw [e1] at h3
        exact Nat.eq_of_mul_eq_mul_left hp (by unfold subQ; omega)
      rw [e2, (hin c c').2]
      intro d
      by_cases hd : d = sd.mdir
      · subst hd; exact e1
      · have := hm d
        unfold vSub at this
        rwa [if_pos rfl, Function.update_of_ne hd] at this

theorem index_inj (h : SubOK b sd) {c c' : Site n} (hc : InBox a b c) (hc' : InBox a b c')
    (he : (NodeInfo.ofBox a b).siteIndexSub sd c = (NodeInfo.ofBox a b).siteIndexSub sd c') : c = c' := by
  have h1 := (vec_eq_iff h false hc hc').1 (by rw [he])
  have h2 := (index_mod h false hc).1
  rw [he, (index_mod h false hc').1] at h2
  exact QR_ext false hc hc' (vLane_inj h false (vQ_lt h false hc) (vQ_lt h false hc') h2.symm) h1

theorem index_lt (h : SubOK b sd) {c : Site n} (hc : InBox a b c) : (NodeInfo.ofBox a b).siteIndexSub sd c < (NodeInfo.ofBox a b).volume := by
  have h1 := siteIndex_lt a (subSz b sd) _ (subIn_box h c)
  have hl := lane_lt_number h hc
  rw [siteIndexSub_eq h hc, ofBox_volume, ← h.vol]
  rw [ofBox_volume] at h1
  have := Nat.mul_le_mul_left sd.number h1
  have e : sd.number * ((NodeInfo.ofBox a (subSz b sd)).siteIndex (subIn a b sd c) + 1) =
    sd.number * (NodeInfo.ofBox a (subSz b sd)).siteIndex (subIn a b sd c) + sd.number := by ring
  rw [mul_comm (∏ d, subSz b sd d)]
  simp only [Nat.succ_eq_add_one] at this
  omega

theorem index_surj (h : SubOK b sd) (idx : ℕ) (hidx : idx < (NodeInfo.ofBox a b).volume) :
    ∃ c, InBox a b c ∧ (NodeInfo.ofBox a b).siteIndexSub sd c = idx := by
  have hvol := ofBox_volume a b
  have hinj : Function.Injective (fun i : Fin (∏ d, b d) =>
      (⟨(NodeInfo.ofBox a b).siteIndexSub sd (boxSite a b i.val), by
        exact lt_of_lt_of_eq (index_lt h (boxSite_inBox a b i.val i.isLt)) hvol⟩ : Fin (∏ d, b d))) := by
    intro i j hij
    have h1 := index_inj h (boxSite_inBox a b i.val i.isLt) (boxSite_inBox a b j.val j.isLt) (congrArg Fin.val hij)
    apply Fin.ext
    rw [← logical_boxSite a b i.val i.isLt, h1, logical_boxSite a b j.val j.isLt]
  obtain ⟨i, hi⟩ := Finite.surjective_of_injective hinj ⟨idx, by rw [← hvol]; exact hidx⟩
  exact ⟨boxSite a b i.val, boxSite_inBox a b i.val i.isLt, congrArg Fin.val hi⟩

theorem fillSub_inv (h : SubOK b sd) (k : ℕ) (hk : k ≤ ∏ d, b d) :
    (k < ∏ d, b d → ((NodeInfo.ofBox a b).fillCoordinatesSub sd k).2 = boxSite a b k) ∧
    ∀ i, i < k → ((NodeInfo.ofBox a b).fillCoordinatesSub sd k).1 ((NodeInfo.ofBox a b).siteIndexSub sd (boxSite a b i)) = some (boxSite a b i) := by
  induction k with
  | zero =>
    refine ⟨fun _ => ?_, fun i hi => by omega⟩
    show (NodeInfo.ofBox a b).min = _
    rw [ofBox_min]; funext d; simp [boxSite, digits_zero]
  | succ k ih =>
    obtain ⟨h1, h2⟩ := ih (by omega)
    have hl := h1 (by omega)
    have hunf : (NodeInfo.ofBox a b).fillCoordinatesSub sd (k + 1) =
        (Function.update ((NodeInfo.ofBox a b).fillCoordinatesSub sd k).1
          ((NodeInfo.ofBox a b).siteIndexSub sd ((NodeInfo.ofBox a b).fillCoordinatesSub sd k).2)
          (some ((NodeInfo.ofBox a b).fillCoordinatesSub sd k).2),
          advance (NodeInfo.ofBox a b).min (NodeInfo.ofBox a b).size ((NodeInfo.ofBox a b).fillCoordinatesSub sd k).2) := rfl
    rw [hunf, hl]
    refine ⟨fun hlt => ?_, fun i hi => ?_⟩
    · show advance (NodeInfo.ofBox a b).min (NodeInfo.ofBox a b).size _ = _
      rw [ofBox_min, ofBox_size]; exact advance_boxSite a b k hlt
    · by_cases hik : i = k
      · subst hik; simp
      · have hne : (NodeInfo.ofBox a b).siteIndexSub sd (boxSite a b i) ≠ (NodeInfo.ofBox a b).siteIndexSub sd (boxSite a b k) := by
          intro he
          have := index_inj h (boxSite_inBox a b i (by omega)) (boxSite_inBox a b k (by omega)) he
          have h3 := logical_boxSite a b i (by omega)
          rw [this, logical_boxSite a b k (by omega)] at h3
          omega
        simp only [Function.update_of_ne hne]
        exact h2 i (by omega)

theorem table_index (h : SubOK b sd) {c : Site n} (hc : InBox a b c) :
    ((NodeInfo.ofBox a b).fillCoordinatesSub sd (NodeInfo.ofBox a b).volume).1 ((NodeInfo.ofBox a b).siteIndexSub sd c) = some c := by
  have := (fillSub_inv (a := a) h (∏ d, b d) (le_refl _)).2 ((NodeInfo.ofBox a b).logicalIndex c) (logical_lt a b c hc)
  rw [boxSite_logical a b c hc] at this
  rw [ofBox_volume]; exact this

theorem coordSub_index (h : SubOK b sd) {c : Site n} (hc : InBox a b c) :
    (NodeInfo.ofBox a b).coordSub sd ((NodeInfo.ofBox a b).siteIndexSub sd c) = c := by
  unfold NodeInfo.coordSub
  rw [table_index h hc]; rfl

theorem coordSub_spec (h : SubOK b sd) (i : ℕ) (hi : i < (NodeInfo.ofBox a b).volume) :
    InBox a b ((NodeInfo.ofBox a b).coordSub sd i) ∧ (NodeInfo.ofBox a b).siteIndexSub sd ((NodeInfo.ofBox a b).coordSub sd i) = i := by
  obtain ⟨c, hc, rfl⟩ := index_surj h i hi
  rw [coordSub_index h hc]
  exact ⟨hc, rfl⟩

/-- Number of vectors. -/
theorem vSites_mul (h : SubOK b sd) (dbl : Bool) : (NodeInfo.ofBox a b).vSites sd dbl * sd.vecSize dbl = (NodeInfo.ofBox a b).volume := by
  unfold NodeInfo.vSites
  refine Nat.div_mul_cancel ?_
  rw [ofBox_volume, ← h.vol]
  refine Dvd.dvd.mul_left ?_ _
  cases dbl
  · exact dvd_refl _
  · rw [h.vecSize_dbl, number_eq]
    exact Nat.mul_dvd_mul_left _ (Nat.div_dvd_of_dvd h.merged)

theorem vec_lt (h : SubOK b sd) (dbl : Bool) {c : Site n} (hc : InBox a b c) :
    (NodeInfo.ofBox a b).siteIndexSub sd c / sd.vecSize dbl < (NodeInfo.ofBox a b).vSites sd dbl := by
  rw [Nat.div_lt_iff_lt_mul (h.vecSize_pos dbl), vSites_mul h]
  exact index_lt h hc

/-- Even sites are in the first half of the vectors. -/
theorem vec_half (h : SubOK b sd) (dbl : Bool) {c : Site n} (hc : InBox a b c) :
    (NodeInfo.ofBox a b).siteIndexSub sd c / sd.vecSize dbl < (NodeInfo.ofBox a b).vSites sd dbl / 2 ↔ (∑ d, c d) % 2 = 0 := by
  have h1 := siteIndex_lt_even_iff a (subSz b sd) _ (subIn_box h c)
  obtain ⟨k, hk⟩ := h.prod_even
  rw [ofBox_evensites, hk, if_neg (by omega), Nat.mul_div_cancel_left _ (by omega), subIn_parity h hc] at h1
  have hvs : (NodeInfo.ofBox a b).vSites sd dbl = if dbl then 4 * k else 2 * k := by
    have h2 := vSites_mul (a := a) h dbl
    rw [ofBox_volume, ← h.vol, hk] at h2
    cases dbl
    · exact Nat.eq_of_mul_eq_mul_right h.number_pos h2
    · have hN : sd.number = 2 * sd.vecSize true := by
        rw [h.vecSize_dbl, number_eq, mul_comm 2, mul_assoc, Nat.div_mul_cancel h.merged]
      rw [hN] at h2
      exact Nat.eq_of_mul_eq_mul_right (h.vecSize_pos true) (by rw [h2]; simp; ring)
  rw [hvs, (index_mod h dbl hc).2, ← h1]
  cases dbl
  · simp
  · simp only [if_true]
    have := Nat.mod_lt (subQ a b sd c sd.mdir) (show 0 < 2 by omega)
    omega

theorem vSites_even (h : SubOK b sd) (dbl : Bool) : (NodeInfo.ofBox a b).vSites sd dbl % 2 = 0 := by
  obtain ⟨k, hk⟩ := h.prod_even
  have h2 := vSites_mul (a := a) h dbl
  rw [ofBox_volume, ← h.vol, hk] at h2
  cases dbl
  · have := Nat.eq_of_mul_eq_mul_right h.number_pos h2
    omega
  · have hN : sd.number = 2 * sd.vecSize true := by
      rw [h.vecSize_dbl, number_eq, mul_comm 2, mul_assoc, Nat.div_mul_cancel h.merged]
    rw [hN] at h2
    have := Nat.eq_of_mul_eq_mul_right (h.vecSize_pos true) (h2.trans (show 2 * k * (2 * sd.vecSize true) = (4 * k) * sd.vecSize true by ring))
    omega

/-- All combinations of lane and vector occur; with the lane 0 the site is in the first subnode. -/
theorem vec_site (h : SubOK b sd) (dbl : Bool) (i k : ℕ) (hi : i < (NodeInfo.ofBox a b).vSites sd dbl) (hk : k < sd.vecSize dbl) :
    ∃ c, InBox a b c ∧ (NodeInfo.ofBox a b).siteIndexSub sd c = sd.vecSize dbl * i + k ∧
      (NodeInfo.ofBox a b).siteIndexSub sd c / sd.vecSize dbl = i ∧ (NodeInfo.ofBox a b).siteIndexSub sd c % sd.vecSize dbl = k := by
  have hV := h.vecSize_pos dbl
  have hlt : sd.vecSize dbl * i + k < (NodeInfo.ofBox a b).volume := by
    rw [← vSites_mul h dbl]
    calc _ < sd.vecSize dbl * i + sd.vecSize dbl := by omega
      _ = (i + 1) * sd.vecSize dbl := by ring
      _ ≤ _ := Nat.mul_le_mul_right _ hi
  obtain ⟨c, hc, e⟩ := index_surj h _ hlt
  refine ⟨c, hc, e, ?_, ?_⟩
  · rw [e, Nat.mul_add_div hV, Nat.div_eq_of_lt hk, add_zero]
  · rw [e, Nat.mul_add_mod, Nat.mod_eq_of_lt hk]

end Box

end Hila
