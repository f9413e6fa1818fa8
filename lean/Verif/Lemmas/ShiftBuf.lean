import Verif.Lemmas.Shift
import Verif.Props.Coord

/-!
# Lemmas about buffered shifts
-/

namespace Hila

open BigOperators

variable {n : ℕ} {V : Type} (lay : Layout n)

theorem maxAxis_spec (v : CV n) (hv : v ≠ 0) : ∃ a, maxAxis v = some a ∧ v a ≠ 0 := by
  have key : ∀ (l : List (Fin n)) (acc : Option (Fin n)),
      (∃ j, (l.foldl (fun acc i => match acc with
        | none => some i
        | some j => if |v j| < |v i| then some i else some j) acc) = some j ∧
        (∀ i ∈ l, |v i| ≤ |v j|) ∧ ∀ k, acc = some k → |v k| ≤ |v j|) ∨
      (l = [] ∧ acc = none) := by
    intro l
    induction l with
    | nil =>
      intro acc
      cases acc with
      | none => right; simp
      | some j => left; exact ⟨j, rfl, by simp, fun k hk => by cases hk; exact le_refl _⟩
    | cons x l ih =>
      intro acc
      left
      rw [List.foldl_cons]
      cases acc with
      | none =>
        rcases ih (some x) with ⟨j, h1, h2, h3⟩ | ⟨_, h⟩
        · refine ⟨j, h1, ?_, fun k hk => by cases hk⟩
          intro i hi
          rcases List.mem_cons.1 hi with e | e
          · subst e; exact h3 _ rfl
          · exact h2 i e
        · cases h
      | some k =>
        simp only
        split
        · rename_i hlt
          rcases ih (some x) with ⟨j, h1, h2, h3⟩ | ⟨_, h⟩
          · refine ⟨j, h1, ?_, fun k' hk => by cases hk; exact le_trans (le_of_lt hlt) (h3 _ rfl)⟩
            intro i hi
            rcases List.mem_cons.1 hi with e | e
            · subst e; exact h3 _ rfl
            · exact h2 i e
          · cases h
        · rename_i hlt
          rcases ih (some k) with ⟨j, h1, h2, h3⟩ | ⟨_, h⟩
          · refine ⟨j, h1, ?_, fun k' hk => by cases hk; exact h3 _ rfl⟩
            intro i hi
            rcases List.mem_cons.1 hi with e | e
            · subst e; exact le_trans (not_lt.1 hlt) (h3 _ rfl)
            · exact h2 i e
          · cases h
  rcases key (List.finRange n) none with ⟨j, h1, h2, _⟩ | ⟨h1, _⟩
  · refine ⟨j, h1, fun hj => hv ?_⟩
    funext i
    have := h2 i (List.mem_finRange i)
    rw [hj, abs_zero] at this
    exact abs_eq_zero.1 (le_antisymm this (abs_nonneg _))
  · exfalso; apply hv; funext i
    have := List.mem_finRange i
    rw [h1] at this; simp at this

theorem normL1_towards (v : CV n) (a : Fin n) (ha : v a ≠ 0) :
    (v.subDir (towards (v a) a)).normL1 = v.normL1 - 1 := by
  rw [subDir_eq, ofDir_towards]
  unfold CV.normL1
  rw [← Finset.sum_sdiff (Finset.subset_univ {a}), Finset.sum_singleton,
    ← Finset.sum_sdiff (Finset.subset_univ {a}) (f := fun d => |v d|), Finset.sum_singleton]
  have h1 : ∑ x ∈ Finset.univ \ {a}, |(v - fun b => if b = a then if 0 < v a then (1 : ℤ) else -1 else 0) x| =
      ∑ x ∈ Finset.univ \ {a}, |v x| := by
    apply Finset.sum_congr rfl
    intro x hx
    have : x ≠ a := by simpa using hx
    simp [this]
  rw [h1]
  simp only [Pi.sub_apply, if_true]
  rcases lt_or_gt_of_ne ha with hneg | hpos
  · rw [if_neg (by omega), abs_of_neg hneg]
    rcases abs_cases (v a - -1) with ⟨e, _⟩ | ⟨e, _⟩ <;> omega
  · rw [if_pos hpos, abs_of_pos hpos]
    rcases abs_cases (v a - 1) with ⟨e, _⟩ | ⟨e, _⟩ <;> omega

/-- Every entry of the buffer holds the displaced field on the sites of its parity flag. -/
structure BufOK (f : Site n → V) (B : List (ShiftEntry n V)) : Prop where
  nodup : (B.map (·.offset)).Nodup
  nonzero : ∀ e ∈ B, e.offset ≠ 0
  holds : ∀ e ∈ B, HoldsShift lay f e.offset e.par e.f

/-- Parity flags only grow and entries keep their place. -/
def BufExt (B B' : List (ShiftEntry n V)) : Prop :=
  ∀ (i : ℕ) (e : ShiftEntry n V), B[i]? = some e →
    ∃ e' : ShiftEntry n V, B'[i]? = some e' ∧ e'.offset = e.offset ∧
      ∀ q : Parity, (q = .even ∨ q = .odd) → e.par.visits q = true → e'.par.visits q = true

theorem BufExt.refl (B : List (ShiftEntry n V)) : BufExt B B :=
  fun _ e h => ⟨e, h, rfl, fun _ _ h => h⟩

theorem BufExt.trans {B B' B'' : List (ShiftEntry n V)} (h1 : BufExt B B') (h2 : BufExt B' B'') :
    BufExt B B'' := by
  intro i e h
  obtain ⟨e', h3, h4, h5⟩ := h1 i e h
  obtain ⟨e'', h6, h7, h8⟩ := h2 i e' h3
  exact ⟨e'', h6, h7.trans h4, fun q hq hv => h8 q hq (h5 q hq hv)⟩

theorem addOffset_ok (f : Site n → V) (B : List (ShiftEntry n V)) (v : CV n) (h : BufOK lay f B) :
    BufOK lay f (addOffset B v) ∧ BufExt B (addOffset B v) ∧ (addOffset B v).length ≤ B.length + 1 ∧
    (v ≠ 0 → ∃ e ∈ addOffset B v, e.offset = v) := by
  unfold addOffset
  split
  · rename_i hz
    exact ⟨h, BufExt.refl B, by omega, fun hv => absurd ((normL1_zero_iff v).1 hz) hv⟩
  · rename_i hz
    split
    · rename_i hany
      obtain ⟨e, he, ho⟩ := List.any_eq_true.1 hany
      exact ⟨h, BufExt.refl B, by omega, fun _ => ⟨e, he, by simpa using ho⟩⟩
    · rename_i hany
      refine ⟨⟨?_, ?_, ?_⟩, ?_, by simp, fun _ => ⟨⟨v, .none, fun _ => none⟩, by simp, rfl⟩⟩
      · rw [List.map_append, List.map_singleton, List.nodup_append]
        refine ⟨h.nodup, by simp, ?_⟩
        intro a ha b hb hab
        simp only [List.mem_singleton] at hb
        obtain ⟨e, he, rfl⟩ := List.mem_map.1 ha
        apply hany
        rw [List.any_eq_true]
        exact ⟨e, he, by simp [hab, hb]⟩
      · intro e he
        rcases List.mem_append.1 he with h1 | h1
        · exact h.nonzero e h1
        · simp only [List.mem_singleton] at h1
          subst h1
          exact fun e => hz ((normL1_zero_iff v).2 e)
      · intro e he
        rcases List.mem_append.1 he with h1 | h1
        · exact h.holds e h1
        · simp only [List.mem_singleton] at h1
          subst h1
          intro c _ hv
          exfalso
          rcases Site.parity_cases c with hp | hp <;> rw [hp] at hv <;> simp [Parity.visits] at hv
      · intro i e he
        refine ⟨e, ?_, rfl, fun _ _ h => h⟩
        have hi : i < B.length := by
          by_contra hcon
          rw [List.getElem?_eq_none (by omega)] at he; cases he
        rw [List.getElem?_append_left hi]; exact he

theorem visits_or (a b q : Parity) (hq : q = .even ∨ q = .odd) :
    (Parity.ofBits (a.bits ||| b.bits)).visits q = (a.visits q || b.visits q) := by
  rcases hq with h | h <;> subst h <;> cases a <;> cases b <;> rfl

theorem finish_ok (h : lay.WF) (f : Site n → V) (B : List (ShiftEntry n V)) (hB : BufOK lay f B) (i : ℕ)
    (e : ShiftEntry n V) (hi : B[i]? = some e) (src : Site n → Option V) (d : Dir n) (P : Parity)
    (w : CV n) (hw : w + CV.ofDir d = e.offset)
    (hev : P = .all ∨ lay.L (axis d) % 2 = 0)
    (hsrc : HoldsShift lay f w (oppParity P) src) :
    BufOK lay f (finishShift lay B i src d P) ∧ BufExt B (finishShift lay B i src d P) ∧
    (finishShift lay B i src d P).length = B.length ∧
    ∃ e', (finishShift lay B i src d P)[i]? = some e' ∧ e'.offset = e.offset ∧
      ∀ q : Parity, (q = .even ∨ q = .odd) → P.visits q = true → e'.par.visits q = true := by
  have hget : ∀ k, (finishShift lay B i src d P)[k]? = (B[k]?).map fun e =>
      if i = k then { e with f := shiftFrom lay e.f src d P
                             par := Parity.ofBits (e.par.bits ||| P.bits) } else e := by
    intro k
    unfold finishShift
    rw [List.getElem?_modify]
    cases B[k]? <;> simp
  have hlen : (finishShift lay B i src d P).length = B.length := by
    unfold finishShift; rw [List.length_modify]
  refine ⟨⟨?_, ?_, ?_⟩, ?_, hlen, ?_⟩
  · have : (finishShift lay B i src d P).map (·.offset) = B.map (·.offset) := by
      apply List.ext_getElem?
      intro k
      rw [List.getElem?_map, List.getElem?_map, hget]
      cases B[k]? with
      | none => rfl
      | some x => simp only [Option.map_some]; split <;> rfl
    rw [this]; exact hB.nodup
  · intro x hx
    obtain ⟨k, hk⟩ := List.mem_iff_getElem?.1 hx
    rw [hget] at hk
    obtain ⟨y, hy, hyx⟩ := Option.map_eq_some_iff.1 hk
    have := hB.nonzero y (List.mem_iff_getElem?.2 ⟨k, hy⟩)
    rw [← hyx]; split <;> exact this
  · intro x hx
    obtain ⟨k, hk⟩ := List.mem_iff_getElem?.1 hx
    rw [hget] at hk
    obtain ⟨y, hy, hyx⟩ := Option.map_eq_some_iff.1 hk
    have hyh := hB.holds y (List.mem_iff_getElem?.2 ⟨k, hy⟩)
    rw [← hyx]
    split
    · rename_i hik
      subst hik
      rw [hi] at hy
      cases hy
      intro c hc hv
      simp only at hv ⊢
      rw [visits_or _ _ _ (Site.parity_cases c)] at hv
      by_cases hvP : P.visits c.parity = true
      · have := holds_shiftFrom lay h f w P src e.f d hev hsrc c hc hvP
        rw [this, hw]
      · simp only [shiftFrom, if_neg hvP]
        apply hyh c hc
        simpa [hvP] using hv
    · exact hyh
  · intro k x hx
    have := hget k
    rw [hx, Option.map_some] at this
    refine ⟨_, this, ?_, ?_⟩
    · split <;> rfl
    · intro q hq hv
      split
      · simp only; rw [visits_or _ _ _ hq, hv]; rfl
      · exact hv
  · have := hget i
    rw [hi, Option.map_some, if_pos rfl] at this
    refine ⟨_, this, rfl, fun q hq hv => ?_⟩
    simp only; rw [visits_or _ _ _ hq, hv]; simp

/-- The result of a buffered shift: a reference to a field that holds the displaced values. -/
def RefOK (B : List (ShiftEntry n V)) (v : CV n) (P : Parity) (r : BufRef) : Prop :=
  (v = 0 ∧ r = .self) ∨ ∃ i e, r = .entry i ∧ B[i]? = some e ∧ e.offset = v ∧
    ∀ q : Parity, (q = .even ∨ q = .odd) → P.visits q = true → e.par.visits q = true

theorem holds_of_ref (f : Site n → V) (B : List (ShiftEntry n V)) (hB : BufOK lay f B) (v : CV n)
    (P : Parity) (r : BufRef) (hr : RefOK B v P r) :
    ∃ g, r.field f B = some g ∧ HoldsShift lay f v P g := by
  rcases hr with ⟨hv, hr⟩ | ⟨i, e, hr, hi, ho, hp⟩
  · subst hv; subst hr
    refine ⟨_, rfl, fun c hc _ => ?_⟩
    simp only [shiftAt_zero lay c hc]
  · subst hr
    refine ⟨e.f, by simp [BufRef.field, hi], ?_⟩
    intro c hc hv
    have := hB.holds e (List.mem_iff_getElem?.2 ⟨i, hi⟩) c hc (hp _ (Site.parity_cases c) hv)
    rw [this, ho]

theorem findNearer_spec (B : List (ShiftEntry n V)) (v : CV n) (j : ℕ) (d : Dir n)
    (h : findNearer B v = some (j, d)) :
    ∃ e, B[j]? = some e ∧ v - e.offset = CV.ofDir d ∧ e.offset.normL1 < v.normL1 := by
  unfold findNearer at h
  obtain ⟨k, _, hk⟩ := List.exists_of_findSome?_eq_some h
  split at hk
  · cases hk
  · rename_i e he
    split at hk
    · rename_i d' hd
      split at hk
      · rename_i hlt
        cases hk
        exact ⟨e, he, (C32_is_direction _ _).1.1 hd, hlt⟩
      · cases hk
    · cases hk

theorem offset_unique (B : List (ShiftEntry n V)) (hB : (B.map (·.offset)).Nodup) (i j : ℕ)
    (e e' : ShiftEntry n V) (hi : B[i]? = some e) (hj : B[j]? = some e') (ho : e.offset = e'.offset) :
    i = j := by
  have hi' : i < (B.map (·.offset)).length := by
    rw [List.length_map]
    by_contra hcon
    rw [List.getElem?_eq_none (by omega)] at hi; cases hi
  apply (List.getElem?_inj hi' hB).1
  rw [List.getElem?_map, List.getElem?_map, hi, hj, Option.map_some, Option.map_some, ho]

theorem doShift_spec (h : lay.WF) (f : Site n → V) (cap : ℕ) (fuel : ℕ) :
    ∀ (B : List (ShiftEntry n V)) (v : CV n) (P : Parity), BufOK lay f B →
      (P = .all ∨ ∀ b, lay.L b % 2 = 0) →
      (v ≠ 0 → ∃ e ∈ B, e.offset = v) →
      v.normL1 < fuel → B.length + v.normL1 - 1 ≤ cap →
      ∃ B' r, doShift lay f cap fuel B v P = (B', r) ∧ BufOK lay f B' ∧ BufExt B B' ∧
        (B'.length : ℤ) ≤ B.length + max 0 (v.normL1 - 1) ∧ RefOK B' v P r := by
  induction fuel with
  | zero => intro B v P _ _ _ hf; have := normL1_nonneg v; omega
  | succ fuel ih =>
    intro B v P hB hev hin hf hcap
    have hnn := normL1_nonneg v
    simp only [doShift]
    split
    · rename_i hz
      have hz' := (normL1_zero_iff v).1 hz
      exact ⟨B, .self, rfl, hB, BufExt.refl B, by omega, Or.inl ⟨hz', rfl⟩⟩
    · rename_i hz
      have hv0 : v ≠ 0 := fun e => hz ((normL1_zero_iff v).2 e)
      obtain ⟨e0, he0, ho0⟩ := hin hv0
      have hfi : ∃ i r, B.findIdx? (fun e => decide (e.offset = v)) = some i ∧ B[i]? = some r ∧
          r.offset = v := by
        cases hfi : B.findIdx? (fun e => decide (e.offset = v)) with
        | none =>
          rw [List.findIdx?_eq_none_iff] at hfi
          have := hfi e0 he0
          simp [ho0] at this
        | some i =>
          rw [List.findIdx?_eq_some_iff_getElem] at hfi
          obtain ⟨hi, hp, _⟩ := hfi
          exact ⟨i, B[i], rfl, List.getElem?_eq_getElem hi, by simpa using hp⟩
      obtain ⟨i, r, hfi, hi, hro⟩ := hfi
      simp only [hfi, hi]
      split
      · rename_i hpar
        refine ⟨B, .entry i, rfl, hB, BufExt.refl B, by omega,
          Or.inr ⟨i, r, rfl, hi, hro, fun q hq hv => ?_⟩⟩
        rcases hpar with hp | hp
        · rw [hp]; exact hv
        · rw [hp]; rfl
      · have hev1 : ∀ d : Dir n, P = .all ∨ lay.L (axis d) % 2 = 0 := by
          intro d
          rcases hev with e | e
          · exact Or.inl e
          · exact Or.inr (e _)
        have hevo : oppParity P = .all ∨ ∀ b, lay.L b % 2 = 0 := by
          rcases hev with e | e
          · left; rw [e]; rfl
          · exact Or.inr e
        split
        · rename_i d hd
          have hd' := (C32_is_direction _ _).1.1 hd
          have h0 : HoldsShift lay f 0 (oppParity P) (fun c => some (f c)) := fun c hc _ => by
            simp only [shiftAt_zero lay c hc]
          obtain ⟨k1, k2, k3, e', k4, k5, k6⟩ := finish_ok lay h f B hB i r hi _ d P 0
            (by rw [zero_add, hro, hd']) (hev1 d) h0
          exact ⟨_, _, rfl, k1, k2, by rw [k3]; omega,
            Or.inr ⟨i, e', rfl, k4, k5.trans hro, k6⟩⟩
        · rename_i hnd
          have hnd' : ∀ d, v ≠ CV.ofDir d := fun d e => by
            have := (C32_is_direction v d).1.2 e
            rw [hnd] at this; cases this
          split
          · rename_i j d hnear
            obtain ⟨e, hj, hvd, hlt⟩ := findNearer_spec B v j d hnear
            simp only [hj]
            have heo : e.offset ≠ 0 := fun e0 => hnd' d (by rw [← hvd, e0, sub_zero])
            obtain ⟨B', rr, hdo, hB', hext, hlen, href⟩ := ih B e.offset (oppParity P) hB hevo
              (fun _ => ⟨e, List.mem_iff_getElem?.2 ⟨j, hj⟩, rfl⟩) (by omega) (by omega)
            rw [hdo]
            rcases href with ⟨hz, _⟩ | ⟨i', x, hrr, hi', hxo, hxp⟩
            · exact absurd hz heo
            · subst hrr
              obtain ⟨e', hj', ho', _⟩ := hext j e hj
              have hij : i' = j := offset_unique B' hB'.nodup i' j x e' hi' hj' (by rw [hxo, ho'])
              subst hij
              rw [hi'] at hj'
              cases hj'
              simp only [hi']
              obtain ⟨ri, hri, hrio, _⟩ := hext i r hi
              obtain ⟨g, hg1, hg2⟩ := holds_of_ref lay f B' hB' e.offset (oppParity P) (.entry i')
                (Or.inr ⟨i', x, rfl, hi', hxo, hxp⟩)
              simp only [BufRef.field, hi', Option.map_some, Option.some.injEq] at hg1
              subst hg1
              obtain ⟨k1, k2, k3, e'', k4, k5, k6⟩ := finish_ok lay h f B' hB' i ri hri x.f d P e.offset
                (by rw [hrio, hro, ← hvd]; abel) (hev1 d) hg2
              refine ⟨_, _, rfl, k1, hext.trans k2, by rw [k3]; omega,
                Or.inr ⟨i, e'', rfl, k4, k5.trans (hrio.trans hro), k6⟩⟩
          · obtain ⟨a, ha, hva⟩ := maxAxis_spec v hv0
            simp only [ha]
            have htow : (if 0 < v a then upDir a else oppDir (upDir a)) = towards (v a) a := rfl
            rw [htow]
            set nv := v.subDir (towards (v a) a) with hnv
            have hnorm : nv.normL1 = v.normL1 - 1 := normL1_towards v a hva
            have hnv0 : nv ≠ 0 := by
              intro e0
              apply hnd' (towards (v a) a)
              rw [hnv, subDir_eq] at e0
              exact sub_eq_zero.1 e0
            obtain ⟨a1, a2, a3, a4⟩ := addOffset_ok lay f B nv hB
            have hnv1 : 0 < nv.normL1 := lt_of_le_of_ne (normL1_nonneg nv)
              (fun e0 => hnv0 ((normL1_zero_iff nv).1 e0.symm))
            rw [if_neg (by omega)]
            obtain ⟨B', rr, hdo, hB', hext, hlen, href⟩ := ih (addOffset B nv) nv (oppParity P) a1 hevo
              a4 (by omega) (by omega)
            rw [hdo]
            obtain ⟨g, hg1, hg2⟩ := holds_of_ref lay f B' hB' nv (oppParity P) rr href
            rcases href with ⟨hz, _⟩ | ⟨i', x, hrr, hi', hxo, hxp⟩
            · exact absurd hz hnv0
            · subst hrr
              simp only [hg1]
              obtain ⟨ri, hri, hrio, _⟩ := (a2.trans hext) i r hi
              obtain ⟨k1, k2, k3, e'', k4, k5, k6⟩ := finish_ok lay h f B' hB' i ri hri g
                (towards (v a) a) P nv
                (by rw [hrio, hro, hnv, subDir_eq]; abel) (hev1 _) hg2
              refine ⟨_, _, rfl, k1, (a2.trans hext).trans k2, by rw [k3]; omega,
                Or.inr ⟨i, e'', rfl, k4, k5.trans (hrio.trans hro), k6⟩⟩

end Hila

namespace Hila

variable {n : ℕ} {V : Type} (lay : Layout n)

/-- With a buffer in which nothing is nearer than `v`, every level of the recursion appends an
entry, until the capacity is exceeded. -/
theorem doShift_dangling (f : Site n → V) (cap : ℕ) (k : ℕ) :
    ∀ (fuel : ℕ) (B : List (ShiftEntry n V)) (v : CV n) (P : Parity), P ≠ .none →
      (∀ e ∈ B, e.par = .none ∧ v.normL1 ≤ e.offset.normL1) → (∃ e ∈ B, e.offset = v) →
      B.length + k = cap → (k : ℤ) + 2 ≤ v.normL1 → k < fuel →
      (doShift lay f cap fuel B v P).2 = .dangling := by
  induction k with
  | zero => ?_
  | succ k ih => ?_
  all_goals
    intro fuel B v P hP hB hin hcap hnorm hf
    obtain ⟨fuel, rfl⟩ : ∃ m, fuel = m + 1 := ⟨fuel - 1, by omega⟩
    obtain ⟨e0, he0, ho0⟩ := hin
    have hv0 : v ≠ 0 := fun e => by rw [(normL1_zero_iff v).2 e] at hnorm; omega
    have hfi : ∃ i r, B.findIdx? (fun e => decide (e.offset = v)) = some i ∧ B[i]? = some r ∧
        r ∈ B := by
      cases hfi : B.findIdx? (fun e => decide (e.offset = v)) with
      | none =>
        rw [List.findIdx?_eq_none_iff] at hfi
        have := hfi e0 he0
        simp [ho0] at this
      | some i =>
        rw [List.findIdx?_eq_some_iff_getElem] at hfi
        obtain ⟨hi, hp, _⟩ := hfi
        exact ⟨i, B[i], rfl, List.getElem?_eq_getElem hi, List.getElem_mem hi⟩
    obtain ⟨i, r, hfi, hi, hrB⟩ := hfi
    have hnd : v.isDirection = none := by
      unfold CV.isDirection
      rw [if_pos (by omega)]
    have hnear : findNearer B v = none := by
      cases hn : findNearer B v with
      | none => rfl
      | some p =>
        obtain ⟨j, d⟩ := p
        obtain ⟨e, hj, _, hlt⟩ := findNearer_spec B v j d hn
        have := (hB e (List.mem_iff_getElem?.2 ⟨j, hj⟩)).2
        omega
    obtain ⟨a, ha, hva⟩ := maxAxis_spec v hv0
    have hnorm' := normL1_towards v a hva
    have hadd : addOffset B (v.subDir (towards (v a) a)) =
        B ++ [⟨v.subDir (towards (v a) a), .none, fun _ => none⟩] := by
      unfold addOffset
      rw [if_neg (by omega), if_neg]
      intro hany
      obtain ⟨e, he, ho⟩ := List.any_eq_true.1 hany
      have := (hB e he).2
      simp only [decide_eq_true_eq] at ho
      rw [ho] at this
      omega
    have hpar : ¬ (r.par = P ∨ r.par = .all) := by
      rw [(hB r hrB).1]
      rintro (h | h)
      · exact hP h.symm
      · cases h
    have htow : (if 0 < v a then upDir a else oppDir (upDir a)) = towards (v a) a := rfl
    simp only [doShift, if_neg (show ¬ v.normL1 = 0 by omega), hfi, hi, if_neg hpar, hnd, hnear, ha,
      htow, hadd]
  · rw [if_pos (by simp; omega)]
  · rw [if_neg (by simp; omega)]
    have hres := ih fuel (B ++ [⟨v.subDir (towards (v a) a), .none, fun _ => none⟩])
      (v.subDir (towards (v a) a)) (oppParity P)
      (by cases P <;> first | (exact absurd rfl hP) | decide)
      (by
        intro e he
        rcases List.mem_append.1 he with h1 | h1
        · exact ⟨(hB e h1).1, by have := (hB e h1).2; omega⟩
        · simp only [List.mem_singleton] at h1
          subst h1; exact ⟨rfl, le_refl _⟩)
      ⟨⟨v.subDir (towards (v a) a), .none, fun _ => none⟩, by simp, rfl⟩
      (by simp; omega) (by omega) (by omega)
    split
    · rfl
    · rename_i hdo; rw [hdo] at hres; cases hres
    · rename_i h1 h2 hdo; rw [hdo] at hres; simp only at hres; exact absurd hres h1

end Hila
